import Batteries.Data.List.Perm
import Verif.Proofs.Query
import Verif.Proofs.Params
import Verif.Proofs.Nested

/-! Query strings: which documents come back. The scalars of a document are added one by one; the effect on each container is that of
its own scalars on each child. -/

namespace Jsonutils

theorem addSeg_none_ok : ∀ (segs : List TextNumber) (t : Bytes), ∃ y, (addSeg segs none [t]).2 = .ok y := by
  intro segs t
  induction segs with
  | nil => exact ⟨.str t, rfl⟩
  | cons s segs ih =>
    obtain ⟨y, hy⟩ := ih
    by_cases h : s.isNumber = true ∧ s.number = 0
    · refine ⟨.arr [y], ?_⟩
      rw [addSeg_arr s segs [t] [] none (Or.inr ⟨rfl, rfl, h⟩)]
      simp [h.2, hy]
    · refine ⟨.dict 0 [(s.toText, y)], ?_⟩
      rw [addSeg_dict s segs [t] 0 [] none (Or.inr ⟨rfl, rfl, rfl, h⟩)]
      simp [smGet, hy, smAdd]

/-- One scalar added. -/
def stepB : Option J → List TextNumber × Bytes → Option J
  | none, l => (addSeg l.1 none [l.2]).2.toOption
  | some d, l => (addSeg l.1 (some d) [l.2]).1

/-- Scalars added one by one. -/
def foldB (b : Option J) (ls : List (List TextNumber × Bytes)) : Option J := ls.foldl stepB b

theorem foldB_cons (b : Option J) (l : List TextNumber × Bytes) (ls : List (List TextNumber × Bytes)) :
    foldB b (l :: ls) = foldB (stepB b l) ls := rfl

theorem stepB_none_ok {p : List TextNumber} {t : Bytes} {y : J} (h : (addSeg p none [t]).2 = .ok y) : stepB none (p, t) = some y := by
  simp only [stepB, h]; rfl

theorem stepB_dict (id : Int) (m : SMap J) (s : TextNumber) (p : List TextNumber) (t : Bytes) :
    ∃ y, stepB (smGet m s.toText) (p, t) = some y ∧ stepB (some (.dict id m)) (s :: p, t) = some (.dict id (smAdd m s.toText y)) := by
  simp only [stepB]
  rw [addSeg_dict s p [t] id m _ (Or.inl rfl)]
  cases hg : smGet m s.toText with
  | none =>
    obtain ⟨y, hy⟩ := addSeg_none_ok p t
    exact ⟨y, stepB_none_ok hy, by simp only [hy, Option.map_some]⟩
  | some x =>
    simp only [Option.map_some, stepB]
    have hs : ((addSeg p (some x) [t]).1).isSome = true := by
      cases p with
      | nil => rfl
      | cons a p => 
        cases x with
        | dict id' m' =>
          rw [addSeg_dict a p [t] id' m' _ (Or.inl rfl)]
          split
          · split <;> rfl
          · rfl
        | arr ys =>
          rw [addSeg_arr a p [t] ys _ (Or.inl rfl)]
          split
          · split <;> rfl
          · split
            · split <;> rfl
            · rfl
        | _ => rfl
    obtain ⟨y, hy⟩ := Option.isSome_iff_exists.1 hs
    exact ⟨y, hy, by rw [hy]; rfl⟩

theorem stepB_isSome (b : Option J) (l : List TextNumber × Bytes) : ∃ y, stepB b l = some y := by
  obtain ⟨p, t⟩ := l
  obtain ⟨y, hy, _⟩ := stepB_dict 0 (match b with | none => [] | some x => [(TextNumber.toText ⟨[], 0, true⟩, x)]) ⟨[], 0, true⟩ p t
  refine ⟨y, ?_⟩
  rw [← hy]
  cases b <;> simp [smGet]

theorem stepB_none_dict {s : TextNumber} (h : ¬ (s.isNumber = true ∧ s.number = 0)) (p : List TextNumber) (t : Bytes) :
    stepB none (s :: p, t) = stepB (some (.dict 0 [])) (s :: p, t) := by
  simp only [stepB]
  rw [addSeg_dict s p [t] 0 [] none (Or.inr ⟨rfl, rfl, rfl, h⟩), addSeg_dict s p [t] 0 [] (some (.dict 0 [])) (Or.inl rfl)]
  obtain ⟨y, hy⟩ := addSeg_none_ok p t
  simp only [smGet, hy]
  rfl

theorem stepB_none_arr {s : TextNumber} (h : s.isNumber = true ∧ s.number = 0) (p : List TextNumber) (t : Bytes) :
    stepB none (s :: p, t) = stepB (some (.arr [])) (s :: p, t) := by
  simp only [stepB]
  rw [addSeg_arr s p [t] [] none (Or.inr ⟨rfl, rfl, h⟩), addSeg_arr s p [t] [] (some (.arr [])) (Or.inl rfl)]
  obtain ⟨y, hy⟩ := addSeg_none_ok p t
  simp [h.2, hy]
  rfl

/-- The step at an array with a natural index. -/
theorem stepB_arr (xs : List J) (i : Nat) (s : TextNumber) (hs : s.number = (i : Int)) (p : List TextNumber) (t : Bytes) :
    (i ≤ xs.length ∧ ∃ y, stepB xs[i]? (p, t) = some y ∧
      stepB (some (.arr xs)) (s :: p, t) = some (.arr (if i < xs.length then xs.set i y else xs ++ [y]))) ∨
    (xs.length < i ∧ stepB (some (.arr xs)) (s :: p, t) = some (.arr xs)) := by
  simp only [stepB]
  rw [addSeg_arr s p [t] xs _ (Or.inl rfl), hs]
  rcases Nat.lt_trichotomy i xs.length with h | h | h
  · refine Or.inl ⟨by omega, ?_⟩
    have hx := List.getElem?_eq_getElem h
    have hg : arrGetAt xs (i : Int) = .ok xs[i] := by
      unfold arrGetAt
      have h0 : ¬ ((i : Int) < 0) := by omega
      simp only [h0, if_false]
      rw [if_pos (by omega)]
      simp only [Int.toNat_natCast, hx]
    obtain ⟨y, hy⟩ := stepB_isSome (some xs[i]) (p, t)
    refine ⟨y, by rw [hx]; exact hy, ?_⟩
    have h0 : ¬ ((i : Int) < 0) := by omega
    simp only [stepB] at hy
    rw [if_pos (by omega), if_pos h]
    simp only [hg, h0, if_false, hy, Option.getD_some, Int.toNat_natCast, Option.map_some]
  · refine Or.inl ⟨by omega, ?_⟩
    obtain ⟨y, hy⟩ := addSeg_none_ok p t
    have hx : xs[i]? = none := List.getElem?_eq_none (by omega)
    refine ⟨y, by rw [hx]; exact stepB_none_ok hy, ?_⟩
    rw [if_neg (by omega), if_pos (by omega), if_neg (by omega)]
    simp only [hy, Option.map_some]
  · refine Or.inr ⟨h, ?_⟩
    rw [if_neg (by omega), if_neg (by omega)]

/-! ### kinds -/

theorem stepB_arr_kind (xs : List J) (l : List TextNumber × Bytes) : ∃ ys, stepB (some (.arr xs)) l = some (.arr ys) := by
  obtain ⟨p, t⟩ := l
  cases p with
  | nil => exact ⟨xs, rfl⟩
  | cons s p =>
    simp only [stepB]
    rw [addSeg_arr s p [t] xs _ (Or.inl rfl)]
    split
    · split <;> exact ⟨_, rfl⟩
    · split
      · split <;> exact ⟨_, rfl⟩
      · exact ⟨_, rfl⟩

theorem stepB_dict_kind (id : Int) (m : SMap J) (l : List TextNumber × Bytes) : ∃ m', stepB (some (.dict id m)) l = some (.dict id m') := by
  obtain ⟨p, t⟩ := l
  cases p with
  | nil => exact ⟨m, rfl⟩
  | cons s p =>
    obtain ⟨y, _, h⟩ := stepB_dict id m s p t
    exact ⟨_, h⟩

theorem foldB_arr_kind (xs : List J) (ls : List (List TextNumber × Bytes)) : ∃ ys, foldB (some (.arr xs)) ls = some (.arr ys) := by
  induction ls generalizing xs with
  | nil => exact ⟨xs, rfl⟩
  | cons l ls ih =>
    obtain ⟨ys, h⟩ := stepB_arr_kind xs l
    rw [foldB_cons, h]
    exact ih ys

theorem foldB_dict_kind (id : Int) (m : SMap J) (ls : List (List TextNumber × Bytes)) : ∃ m', foldB (some (.dict id m)) ls = some (.dict id m') := by
  induction ls generalizing m with
  | nil => exact ⟨m, rfl⟩
  | cons l ls ih =>
    obtain ⟨ys, h⟩ := stepB_dict_kind id m l
    rw [foldB_cons, h]
    exact ih ys

/-! ### the scalars below one child -/

/-- The scalars whose path starts with `s`, without `s`. -/
def under (s : TextNumber) (ls : List (List TextNumber × Bytes)) : List (List TextNumber × Bytes) :=
  ls.filterMap fun l => match l.1 with
    | [] => none
    | a :: p => if a = s then some (p, l.2) else none

theorem mem_under {s : TextNumber} {ls : List (List TextNumber × Bytes)} {p : List TextNumber} {t : Bytes} :
    (p, t) ∈ under s ls ↔ (s :: p, t) ∈ ls := by
  simp only [under, List.mem_filterMap]
  constructor
  · rintro ⟨⟨q, u⟩, h1, h2⟩
    cases q with
    | nil => cases h2
    | cons a q =>
      simp only at h2
      by_cases ha : a = s
      · rw [if_pos ha] at h2
        simp only [Option.some.injEq, Prod.mk.injEq] at h2
        obtain ⟨rfl, rfl⟩ := h2
        subst ha
        exact h1
      · rw [if_neg ha] at h2; cases h2
  · intro h
    exact ⟨_, h, by simp⟩

theorem under_cons_same (s : TextNumber) (p : List TextNumber) (t : Bytes) (ls : List (List TextNumber × Bytes)) :
    under s ((s :: p, t) :: ls) = (p, t) :: under s ls := by simp [under]

theorem under_cons_ne {s a : TextNumber} (h : a ≠ s) (p : List TextNumber) (t : Bytes) (ls : List (List TextNumber × Bytes)) :
    under s ((a :: p, t) :: ls) = under s ls := by simp [under, h]

/-- Strictly increasing paths. -/
def Incr (ls : List (List TextNumber × Bytes)) : Prop := ls.Pairwise fun a b => segsLess a.1 b.1 = true

theorem incr_under {ls : List (List TextNumber × Bytes)} (h : Incr ls) (s : TextNumber) : Incr (under s ls) := by
  unfold Incr under at *
  rw [List.pairwise_filterMap]
  refine h.imp ?_
  rintro ⟨a, t⟩ ⟨b, u⟩ hab a' ha b' hb
  cases a with
  | nil => cases ha
  | cons x a =>
    cases b with
    | nil => cases hb
    | cons y b =>
      simp only at ha hb
      by_cases hx : x = s
      · by_cases hy : y = s
        · rw [if_pos hx] at ha
          rw [if_pos hy] at hb
          cases ha; cases hb
          subst hx; subst hy
          rwa [segsLess_cons] at hab
        · rw [if_neg hy] at hb; cases hb
      · rw [if_neg hx] at ha; cases ha

/-- Scalars added to a dictionary: each member sees its own. -/
theorem foldB_dict (id : Int) (m : SMap J) (hm : SMap.Sorted m) (ls : List (List TextNumber × Bytes))
    (hl : ∀ l ∈ ls, ∃ s p, l.1 = s :: p ∧ string2TextNumber s.toText = s) :
    ∃ m', foldB (some (.dict id m)) ls = some (.dict id m') ∧ SMap.Sorted m' ∧
      ∀ k, (string2TextNumber k).toText = k → smGet m' k = foldB (smGet m k) (under (string2TextNumber k) ls) := by
  induction ls generalizing m with
  | nil => exact ⟨m, rfl, hm, fun k _ => rfl⟩
  | cons l ls ih =>
    obtain ⟨q, t⟩ := l
    obtain ⟨s, p, h1, h2⟩ := hl (q, t) (by simp)
    simp only at h1
    subst h1
    obtain ⟨y, hy, hst⟩ := stepB_dict id m s p t
    obtain ⟨m', e, hs, hk⟩ := ih (smAdd m s.toText y) (sorted_smAdd hm _ _) fun l hl' => hl l (by simp [hl'])
    refine ⟨m', by rw [foldB_cons, hst, e], hs, fun k hkk => ?_⟩
    rw [hk k hkk, smGet_smAdd _ hm]
    by_cases hsk : s = string2TextNumber k
    · subst hsk
      rw [under_cons_same, foldB_cons, hkk]
      rw [hkk] at hy
      rw [hy, if_pos rfl]
    · rw [under_cons_ne hsk, if_neg]
      intro hc
      first
        | exact hsk (by rw [← h2, hc])
        | exact hsk (by rw [← h2, ← hc])

/-! ### counting scalars -/

theorem leavess_length (xs : List J) (i : Nat) : (J.leavess xs i).length = (xs.map fun x => x.leaves.length).sum := by
  induction xs generalizing i with
  | nil => rfl
  | cons x xs ih => simp [J.leavess, ih]

theorem leavesf_length (m : List (Bytes × J)) : (J.leavesf m).length = (m.map fun e => e.2.leaves.length).sum := by
  induction m with
  | nil => rfl
  | cons e m ih => obtain ⟨k, x⟩ := e; simp [J.leavesf, ih]

theorem count_smAdd (m : SMap J) (hm : SMap.Sorted m) (k : Bytes) (y : J) :
    (J.leavesf (smAdd m k y)).length + (match smGet m k with | none => 0 | some x => x.leaves.length) = (J.leavesf m).length + y.leaves.length := by
  induction m with
  | nil => simp [smAdd, J.leavesf, smGet]
  | cons e r ih =>
    obtain ⟨k', x⟩ := e
    obtain ⟨h1, h2⟩ := sorted_cons.1 hm
    simp only [smAdd]
    by_cases hb : blt k' k = true
    · rw [if_pos hb]
      have hne : k' ≠ k := blt_ne hb
      simp only [smGet, hne, if_false, J.leavesf, List.length_append, List.length_map]
      have := ih h2
      omega
    · rw [if_neg hb]
      by_cases hk : k' = k
      · rw [if_pos hk]
        simp only [smGet, hk, if_true, J.leavesf, List.length_append, List.length_map]
        omega
      · rw [if_neg hk]
        have hn : smGet r k = none := smGet_none_of fun e he hc => by
          subst hc
          exact hb (h1 e he)
        simp only [smGet, hk, if_false, hn, J.leavesf, List.length_append, List.length_map]
        omega

theorem count_set (xs : List J) (i : Nat) (h : i < xs.length) (y : J) :
    (J.leavess (xs.set i y) 0).length + xs[i].leaves.length = (J.leavess xs 0).length + y.leaves.length := by
  simp only [leavess_length]
  induction xs generalizing i with
  | nil => simp at h
  | cons x xs ih =>
    cases i with
    | zero => simp; omega
    | succ i =>
      simp only [List.length_cons, Nat.add_lt_add_iff_right] at h
      have := ih i h
      simp only [List.set_cons_succ, List.map_cons, List.sum_cons, List.getElem_cons_succ]
      omega

/-- Number of scalars, none if there is no document. -/
def countB : Option J → Nat
  | none => 0
  | some v => v.leaves.length

/-- Well-formed, strings only. -/
def WFB : Option J → Prop
  | none => True
  | some v => v.TextsIn fun _ => True

theorem stepB_arr_any (xs : List J) (s : TextNumber) (p : List TextNumber) (t : Bytes) :
    stepB (some (.arr xs)) (s :: p, t) = some (.arr xs) ∨
    (∃ (i : Nat) (h : i < xs.length) (y : J), stepB (some xs[i]) (p, t) = some y ∧ stepB (some (.arr xs)) (s :: p, t) = some (.arr (xs.set i y))) ∨
    (∃ y, stepB none (p, t) = some y ∧ stepB (some (.arr xs)) (s :: p, t) = some (.arr (xs ++ [y]))) := by
  by_cases hneg : s.number < 0
  · simp only [stepB]
    rw [addSeg_arr s p [t] xs _ (Or.inl rfl), if_pos (by omega)]
    unfold arrGetAt
    simp only [hneg, if_true]
    by_cases hr : 0 ≤ (xs.length : Int) + s.number ∧ (xs.length : Int) + s.number < xs.length
    · rw [if_pos hr]
      have hlt : ((xs.length : Int) + s.number).toNat < xs.length := by omega
      have hx := List.getElem?_eq_getElem hlt
      obtain ⟨y, hy⟩ := stepB_isSome (some xs[((xs.length : Int) + s.number).toNat]) (p, t)
      refine Or.inr (Or.inl ⟨_, hlt, y, hy, ?_⟩)
      simp only [stepB] at hy
      simp only [hx, hy, Option.getD_some, Option.map_some]
    · rw [if_neg hr]; exact Or.inl rfl
  · obtain ⟨i, hi⟩ : ∃ i : Nat, s.number = (i : Int) := ⟨s.number.toNat, by omega⟩
    rcases stepB_arr xs i s hi p t with ⟨hle, y, hy, he⟩ | ⟨_, he⟩
    · by_cases hlt : i < xs.length
      · rw [if_pos hlt] at he
        rw [List.getElem?_eq_getElem hlt] at hy
        exact Or.inr (Or.inl ⟨i, hlt, y, hy, he⟩)
      · rw [if_neg hlt] at he
        rw [List.getElem?_eq_none (by omega)] at hy
        exact Or.inr (Or.inr ⟨y, hy, he⟩)
    · exact Or.inl he

/-- A scalar added adds at most one scalar. -/
theorem stepB_count : ∀ (p : List TextNumber) (t : Bytes) (b : Option J), WFB b →
    WFB (stepB b (p, t)) ∧ countB (stepB b (p, t)) ≤ countB b + 1 := by
  intro p t
  induction p with
  | nil =>
    intro b hb
    cases b with
    | none => exact ⟨(addSeg_textsIn [] none [t] (by simp) (by simp)).2 _ rfl, Nat.le_refl _⟩
    | some d => exact ⟨hb, Nat.le_succ _⟩
  | cons s p ih =>
    have hsome : ∀ d : J, WFB (some d) → WFB (stepB (some d) (s :: p, t)) ∧ countB (stepB (some d) (s :: p, t)) ≤ countB (some d) + 1 := by
      intro d hd
      have hwf : WFB (stepB (some d) (s :: p, t)) := by
        obtain ⟨y, hy⟩ := stepB_isSome (some d) (s :: p, t)
        rw [hy]
        exact (addSeg_textsIn (s :: p) (some d) [t] (by intro b hb; cases hb; exact hd) (by simp)).1 y hy
      refine ⟨hwf, ?_⟩
      cases d with
      | dict id m =>
        obtain ⟨_, hs, hc⟩ := textsIn_dict.1 hd
        obtain ⟨y, hy, he⟩ := stepB_dict id m s p t
        have h1 := (ih (smGet m s.toText) (by
          cases hg : smGet m s.toText with
          | none => trivial
          | some x => exact hc _ (smGet_mem hg))).2
        have h2 := count_smAdd m hs s.toText y
        rw [hy] at h1
        rw [he]
        simp only [countB, J.leaves] at h1 ⊢
        cases hg : smGet m s.toText with
        | none => simp only [hg, countB] at h1 h2; omega
        | some x => simp only [hg, countB] at h1 h2; omega
      | arr xs =>
        have hc := textsIn_arr.1 hd
        rcases stepB_arr_any xs s p t with he | ⟨i, hi, y, hy, he⟩ | ⟨y, hy, he⟩
        · rw [he]; omega
        · have h1 := (ih (some xs[i]) (hc _ (List.getElem_mem hi))).2
          have h2 := count_set xs i hi y
          rw [hy] at h1
          rw [he]
          simp only [countB, J.leaves] at h1 ⊢
          omega
        · have h1 := (ih none trivial).2
          rw [hy] at h1
          rw [he]
          simp only [countB, J.leaves, leavess_length] at h1 ⊢
          simp only [List.map_append, List.sum_append, List.map_cons, List.map_nil, List.sum_cons, List.sum_nil]
          omega
      | null => exact Nat.le_succ _
      | bool _ => exact Nat.le_succ _
      | int _ => exact Nat.le_succ _
      | float _ _ => exact Nat.le_succ _
      | str _ => exact Nat.le_succ _
      | ptr _ => exact Nat.le_succ _
    intro b hb
    cases b with
    | some d => exact hsome d hb
    | none =>
      by_cases h : s.isNumber = true ∧ s.number = 0
      · rw [stepB_none_arr h]
        exact hsome (.arr []) (textsIn_arr.2 (by simp))
      · rw [stepB_none_dict h]
        exact hsome (.dict 0 []) (textsIn_dict.2 ⟨rfl, sorted_nil, by simp⟩)

theorem foldB_count (ls : List (List TextNumber × Bytes)) (b : Option J) (hb : WFB b) : countB (foldB b ls) ≤ countB b + ls.length := by
  induction ls generalizing b with
  | nil => simp [foldB]
  | cons l ls ih =>
    obtain ⟨p, t⟩ := l
    obtain ⟨h1, h2⟩ := stepB_count p t b hb
    have := ih _ h1
    rw [foldB_cons]
    simp only [List.length_cons]
    omega

mutual
theorem textual_count : (v : J) → v.textual.leaves.length = v.leaves.length
  | .arr xs => by simp only [J.textual, J.leaves]; exact textuals_count xs 0
  | .dict _ kvs => by simp only [J.textual, J.leaves]; exact textualf_count kvs
  | .null => rfl
  | .bool _ => rfl
  | .int _ => rfl
  | .float _ _ => rfl
  | .str _ => rfl
  | .ptr _ => rfl
theorem textuals_count : (xs : List J) → (i : Nat) → (J.leavess (J.textuals xs) i).length = (J.leavess xs i).length
  | [], _ => rfl
  | x :: xs, i => by
    simp only [J.textuals, J.leavess, List.length_append, List.length_map]
    rw [textual_count x, textuals_count xs]
theorem textualf_count : (kvs : List (Bytes × J)) → (J.leavesf (J.textualf kvs)).length = (J.leavesf kvs).length
  | [] => rfl
  | (k, x) :: kvs => by
    simp only [J.textualf, J.leavesf, List.length_append, List.length_map]
    rw [textual_count x, textualf_count kvs]
end

/-! ### arrays -/

/-- Every index is met when it is at most the current length. -/
def InRange : Nat → List (List TextNumber × Bytes) → Prop
  | _, [] => True
  | n, l :: ls => ∃ (i : Nat) (s : TextNumber) (p : List TextNumber), l.1 = s :: p ∧ s.number = (i : Int) ∧
      ((i < n ∧ InRange n ls) ∨ (i = n ∧ InRange (n + 1) ls))

/-- Scalars added to an array: one is lost, or each element sees its own. -/
theorem foldB_arr (N : Nat) (num : Nat → TextNumber) (hnum : ∀ i, i < N → (num i).number = (i : Int)) (ls : List (List TextNumber × Bytes)) :
    ∀ (xs : List J), WFB (some (.arr xs)) → (∀ l ∈ ls, ∃ (i : Nat) (p : List TextNumber), i < N ∧ l.1 = num i :: p) →
    ∃ ys, foldB (some (.arr xs)) ls = some (.arr ys) ∧
      ((J.arr ys).leaves.length < (J.arr xs).leaves.length + ls.length ∨
       (InRange xs.length ls ∧ ∀ i, i < N → ys[i]? = foldB xs[i]? (under (num i) ls))) := by
  induction ls with
  | nil => intro xs _ _; exact ⟨xs, rfl, Or.inr ⟨trivial, fun i _ => rfl⟩⟩
  | cons l ls ih =>
    intro xs hw hl
    obtain ⟨q, t⟩ := l
    obtain ⟨i, p, hi, hq⟩ := hl (q, t) (by simp)
    simp only at hq
    subst hq
    have hstep := stepB_count (num i :: p) t (some (.arr xs)) hw
    rcases stepB_arr xs i (num i) (hnum i hi) p t with ⟨hle, y, hy, he⟩ | ⟨hlt, he⟩
    · rw [he] at hstep
      obtain ⟨ys, e, h⟩ := ih _ hstep.1 fun l hl' => hl l (by simp [hl'])
      refine ⟨ys, by rw [foldB_cons, he, e], ?_⟩
      simp only [countB] at hstep
      rcases h with h | ⟨hr, hk⟩
      · left
        have := hstep.2
        simp only [List.length_cons]
        omega
      · right
        constructor
        · refine ⟨i, num i, p, rfl, hnum i hi, ?_⟩
          by_cases hlt : i < xs.length
          · rw [if_pos hlt] at hr
            left
            refine ⟨hlt, ?_⟩
            rwa [List.length_set] at hr
          · rw [if_neg hlt] at hr
            right
            refine ⟨by omega, ?_⟩
            rwa [List.length_append] at hr
        · intro j hj
          rw [hk j hj]
          by_cases hij : i = j
          · subst hij
            rw [under_cons_same, foldB_cons, hy]
            congr 1
            by_cases hlt : i < xs.length
            · rw [if_pos hlt, List.getElem?_set]; simp [hlt]
            · rw [if_neg hlt]
              have : i = xs.length := by omega
              subst this
              simp
          · rw [under_cons_ne (fun hc => hij (by
              have h1 := hnum i hi
              rw [hc, hnum j hj] at h1
              omega))]
            congr 1
            by_cases hlt : i < xs.length
            · rw [if_pos hlt, List.getElem?_set, if_neg hij]
            · rw [if_neg hlt, List.getElem?_append]
              split
              · rfl
              · rw [List.getElem?_eq_none (l := xs) (by omega), List.getElem?_eq_none]
                simp only [List.length_singleton]
                omega
    · obtain ⟨ys, e, h⟩ := ih xs hw fun l hl' => hl l (by simp [hl'])
      refine ⟨ys, by rw [foldB_cons, he, e], Or.inl ?_⟩
      have hc := foldB_count ls (some (.arr xs)) hw
      rw [e] at hc
      simp only [countB] at hc
      simp only [List.length_cons]
      omega

/-- In a sequence with indices in range, a smaller index comes first. -/
theorem inRange_before {ls l1 l2 : List (List TextNumber × Bytes)} {n a b : Nat} {s : TextNumber} {q : List TextNumber} {t : Bytes}
    (h : InRange n ls) (e : ls = l1 ++ (s :: q, t) :: l2) (hs : s.number = (b : Int)) (hab : a < b) (hna : n ≤ a) :
    ∃ (s' : TextNumber) (p : List TextNumber) (u : Bytes), (s' :: p, u) ∈ l1 ∧ s'.number = (a : Int) := by
  induction l1 generalizing ls n with
  | nil =>
    subst e
    obtain ⟨i, s', p, h1, h2, h3⟩ := h
    simp only [List.cons.injEq] at h1
    obtain ⟨rfl, rfl⟩ := h1
    rcases h3 with ⟨h3, _⟩ | ⟨h3, _⟩ <;> omega
  | cons l l1 ih =>
    subst e
    obtain ⟨i, s', p, h1, h2, h3⟩ := h
    obtain ⟨l, u⟩ := l
    simp only at h1
    subst h1
    rcases h3 with ⟨h3, h4⟩ | ⟨h3, h4⟩
    · obtain ⟨s'', p', u', h5, h6⟩ := ih h4 rfl hna
      exact ⟨s'', p', u', by simp [h5], h6⟩
    · by_cases hia : n = a
      · exact ⟨s', p, u, by simp, by omega⟩
      · obtain ⟨s'', p', u', h5, h6⟩ := ih h4 rfl (by omega)
        exact ⟨s'', p', u', by simp [h5], h6⟩

/-! ### the order -/

/-- `ls` are the scalars of a document in the order of their keys. -/
def LeafSeq (leaves : List (List Bytes × Bytes)) (ls : List (List TextNumber × Bytes)) : Prop :=
  Incr ls ∧ ∀ l, l ∈ ls ↔ ∃ q ∈ leaves, l = (segsOf q.1, q.2)

theorem incr_nodup {ls : List (List TextNumber × Bytes)} (h : Incr ls) : ls.Nodup :=
  h.imp fun {a b} hab hc => by rw [hc, segsLess_irrefl] at hab; cases hab

theorem leafSeq_length {leaves : List (List Bytes × Bytes)} {ls : List (List TextNumber × Bytes)} (h : LeafSeq leaves ls) :
    ls.length ≤ leaves.length := by
  have := (List.subperm_of_subset (incr_nodup h.1) (l₂ := leaves.map fun q => (segsOf q.1, q.2)) fun l hl => by
    obtain ⟨q, hq, rfl⟩ := (h.2 l).1 hl
    exact List.mem_map.2 ⟨q, hq, rfl⟩).length_le
  simpa using this

theorem leafSeq_dict {kvs : SMap J} (hs : SMap.Sorted kvs) (hk : ∀ e ∈ kvs, QueryKey e.1) {ls : List (List TextNumber × Bytes)}
    (h : LeafSeq (J.leavesf kvs) ls) {k : Bytes} {x : J} (hx : (k, x) ∈ kvs) : LeafSeq x.leaves (under (string2TextNumber k) ls) := by
  refine ⟨incr_under h.1 _, ?_⟩
  rintro ⟨p, t⟩
  rw [mem_under, h.2]
  constructor
  · rintro ⟨q, hq, e⟩
    obtain ⟨k', x', h1, q', h2, rfl⟩ := mem_leavesf.1 hq
    simp only [segsOf, List.map_cons, Prod.mk.injEq, List.cons.injEq] at e
    have hkk : k = k' := string2TextNumber_inj ((toText_eq_iff _).2 (hk _ hx).2) ((toText_eq_iff _).2 (hk _ h1).2) e.1.1
    subst hkk
    have : x = x' := by
      have a := smGet_of_mem hs hx
      have b := smGet_of_mem hs h1
      rw [a] at b
      exact Option.some.inj b
    subst this
    exact ⟨q', h2, by rw [e.1.2, e.2]; rfl⟩
  · rintro ⟨q, hq, e⟩
    refine ⟨(k :: q.1, q.2), mem_leavesf.2 ⟨k, x, hx, q, hq, rfl⟩, ?_⟩
    simp only [Prod.mk.injEq] at e
    rw [e.1, e.2]
    rfl

theorem leafSeq_arr {xs : List J} (hlen : InI64 xs.length) {ls : List (List TextNumber × Bytes)}
    (h : LeafSeq (J.leavess xs 0) ls) {i : Nat} {x : J} (hx : xs[i]? = some x) : LeafSeq x.leaves (under (string2TextNumber (intDec i)) ls) := by
  have hI : ∀ j : Nat, j < xs.length → InI64 (j : Int) := fun j hj => by unfold InI64 i64min i64max at *; omega
  refine ⟨incr_under h.1 _, ?_⟩
  rintro ⟨p, t⟩
  rw [mem_under, h.2]
  constructor
  · rintro ⟨q, hq, e⟩
    obtain ⟨j, x', q', h1, h2, rfl⟩ := mem_leavess.1 hq
    simp only [segsOf, List.map_cons, Prod.mk.injEq, List.cons.injEq, Nat.zero_add] at e
    have hij : i = j := by
      have := e.1.1
      rw [string2TextNumber_number (isNumber_intDec (hI i (List.getElem?_eq_some_iff.1 hx).1)),
        string2TextNumber_number (isNumber_intDec (hI j (List.getElem?_eq_some_iff.1 h1).1))] at this
      simp only [TextNumber.mk.injEq, and_true, true_and] at this
      omega
    subst hij
    rw [hx] at h1
    cases h1
    exact ⟨q', h2, by rw [e.1.2, e.2]; rfl⟩
  · rintro ⟨q, hq, e⟩
    refine ⟨(intDec i :: q.1, q.2), mem_leavess.2 ⟨i, x, q, hx, hq, by rw [Nat.zero_add]⟩, ?_⟩
    simp only [Prod.mk.injEq] at e
    rw [e.1, e.2]
    rfl

theorem smGet_textualf {kvs : SMap J} (k : Bytes) : smGet (J.textualf kvs) k = (smGet kvs k).map J.textual := by
  induction kvs with
  | nil => rfl
  | cons e r ih =>
    obtain ⟨k', x⟩ := e
    simp only [J.textualf, smGet]
    split
    · rfl
    · exact ih

theorem textuals_get (xs : List J) (i : Nat) : (J.textuals xs)[i]? = (xs[i]?).map J.textual := by
  induction xs generalizing i with
  | nil => rfl
  | cons x xs ih => cases i with
    | zero => rfl
    | succ i => simpa [J.textuals] using ih i

/-- Every member of a dictionary that comes back comes back. -/
theorem fold_dict_children {kvs : SMap J} (hs : SMap.Sorted kvs) (hk : ∀ e ∈ kvs, QueryKey e.1) {ls : List (List TextNumber × Bytes)}
    (h : LeafSeq (J.leavesf kvs) ls) (he : foldB (some (.dict 0 [])) ls = some (.dict 0 (J.textualf kvs))) {k : Bytes} {x : J} (hx : (k, x) ∈ kvs) :
    foldB none (under (string2TextNumber k) ls) = some x.textual := by
  obtain ⟨m', e, _, hg⟩ := foldB_dict 0 [] sorted_nil ls fun l hl => by
    obtain ⟨q, hq, rfl⟩ := (h.2 l).1 hl
    obtain ⟨k', x', h1, q', h2, rfl⟩ := mem_leavesf.1 hq
    refine ⟨string2TextNumber k', segsOf q'.1, rfl, ?_⟩
    rw [(toText_eq_iff _).2 (hk _ h1).2]
  rw [he] at e
  have : J.textualf kvs = m' := by injection e with e; injection e
  subst this
  have := hg k ((toText_eq_iff _).2 (hk _ hx).2)
  rw [smGet_textualf, smGet_of_mem hs hx] at this
  exact this.symm

theorem isNumber_zero {k : Bytes} (hk : QueryKey k) : ((string2TextNumber k).isNumber = true ∧ (string2TextNumber k).number = 0) ↔ k = b!"0" := by
  constructor
  · rintro ⟨h1, h2⟩
    refine ((toText_eq_iff _).2 hk.2).symm.trans ?_
    simp only [TextNumber.toText, h1, h2, if_true]
    rfl
  · rintro rfl
    have h0 : IsNumber b!"0" 0 := isNumber_intDec (n := 0) (by unfold InI64 i64min i64max; omega)
    rw [string2TextNumber_number h0]
    exact ⟨rfl, rfl⟩

/-- What comes before a scalar under "0": less deep, or as deep and under a negative number. -/
theorem less_zero {k : Bytes} (hk : k ≠ b!"0") (hq : QueryKey k) (p q : List TextNumber)
    (h : segsLess (string2TextNumber k :: p) (string2TextNumber b!"0" :: q) = true) :
    p.length < q.length ∨ (p.length = q.length ∧ ∃ n, n < 0 ∧ IsNumber k n) := by
  have h0 : IsNumber b!"0" 0 := isNumber_intDec (n := 0) (by unfold InI64 i64min i64max; omega)
  rw [segsLess_iff] at h
  simp only [List.length_cons] at h
  rcases h with h | ⟨h1, h2⟩
  · left; omega
  · refine Or.inr ⟨by omega, ?_⟩
    rw [string2TextNumber_number h0] at h2
    by_cases hn : ∃ n, IsNumber k n
    · obtain ⟨n, hn⟩ := hn
      refine ⟨n, ?_, hn⟩
      rw [string2TextNumber_number hn] at h2
      have hne : n ≠ 0 := by
        rintro rfl
        exact hk ((isNumber_zero hq).1 (by rw [string2TextNumber_number hn]; exact ⟨rfl, rfl⟩))
      refine Classical.byContradiction fun hc => ?_
      have : (TextNumber.compare ⟨[], n, true⟩ ⟨[], 0, true⟩) = 1 := by
        have h1 : ¬ n < 0 := hc
        have h2 : 0 < n := by omega
        simp [TextNumber.compare, h1, h2]
      simp [segsLessLoop, this] at h2
    · rw [string2TextNumber_text hn] at h2
      have : (TextNumber.compare ⟨k, 0, false⟩ ⟨[], 0, true⟩) = 1 := by simp [TextNumber.compare]
      simp [segsLessLoop, this] at h2

theorem segsLess_length {p q : List TextNumber} (h : segsLess p q = true) : p.length ≤ q.length := by
  rw [segsLess_iff] at h
  rcases h with h | h <;> omega

theorem queryOrders_iff {xs : List J} : J.QueryOrders xs ↔ ∀ x ∈ xs, x.QueryOrder := by
  induction xs with
  | nil => simp [J.QueryOrders]
  | cons x xs ih => simp [J.QueryOrders, ih]

theorem queryOrderf_iff {kvs : List (Bytes × J)} : J.QueryOrderf kvs ↔ ∀ e ∈ kvs, e.2.QueryOrder := by
  induction kvs with
  | nil => simp [J.QueryOrderf]
  | cons e r ih => obtain ⟨k, x⟩ := e; simp [J.QueryOrderf, ih]

/-- A document that comes back has its scalars in order. -/
theorem fold_order (v : J) : v.WF → v.QueryClean → ∀ ls, LeafSeq v.leaves ls → foldB none ls = some v.textual → v.QueryOrder := by
  induction v using J.ind with
  | arr xs ih =>
    intro hw hc ls hl he
    have hne : ls ≠ [] := by
      rintro rfl
      simp [foldB] at he
    simp only [J.QueryClean] at hc
    simp only [J.leaves] at hl
    have hI : ∀ j : Nat, j < xs.length → InI64 (j : Int) := fun j hj => by unfold InI64 i64min i64max at *; omega
    have hnum : ∀ j : Nat, j < xs.length → string2TextNumber (intDec (j : Int)) = ⟨[], (j : Int), true⟩ := fun j hj =>
      string2TextNumber_number (isNumber_intDec (hI j hj))
    have hform : ∀ l ∈ ls, ∃ (i : Nat) (p : List TextNumber), i < xs.length ∧ l.1 = string2TextNumber (intDec (i : Int)) :: p := by
      intro l hl'
      obtain ⟨q, hq, rfl⟩ := (hl.2 l).1 hl'
      obtain ⟨j, x', q', h1, h2, rfl⟩ := mem_leavess.1 hq
      exact ⟨j, segsOf q'.1, (List.getElem?_eq_some_iff.1 h1).1, by rw [Nat.zero_add]; rfl⟩
    -- it starts as an array
    have hstart : foldB none ls = foldB (some (.arr [])) ls := by
      cases ls with
      | nil => exact absurd rfl hne
      | cons l ls' =>
        obtain ⟨p0, t⟩ := l
        obtain ⟨i, p, hi, hp⟩ := hform (p0, t) (by simp)
        simp only at hp
        subst hp
        rw [foldB_cons, foldB_cons]
        by_cases hz : (string2TextNumber (intDec (i : Int))).isNumber = true ∧ (string2TextNumber (intDec (i : Int))).number = 0
        · rw [stepB_none_arr hz]
        · exfalso
          rw [foldB_cons, stepB_none_dict hz, ← foldB_cons] at he
          obtain ⟨m', hm'⟩ := foldB_dict_kind 0 [] ((string2TextNumber (intDec (i : Int)) :: p, t) :: ls')
          rw [hm'] at he
          simp only [J.textual, Option.some.injEq] at he
          cases he
    rw [hstart] at he
    obtain ⟨ys, e, h⟩ := foldB_arr xs.length (fun i => string2TextNumber (intDec (i : Int))) (fun i hi => by rw [hnum i hi]) ls []
      (textsIn_arr.2 (by simp)) hform
    rw [he] at e
    have hys : J.textuals xs = ys := by
      simp only [J.textual] at e
      injection e with e; injection e
    subst hys
    rcases h with h | ⟨hr, hg⟩
    · exfalso
      have h1 := textuals_count xs 0
      have h2 := leafSeq_length hl
      simp only [J.leaves, J.leavess, List.length_nil] at h
      omega
    · simp only [J.QueryOrder]
      have hchild : ∀ (i : Nat) (x : J), xs[i]? = some x → x.QueryOrder := by
        intro i x hx
        refine ih i x hx (wfs_get hw hx) (queryCleans_get hc.2.2 hx) _ (leafSeq_arr hc.2.1 hl hx) ?_
        have := hg i (List.getElem?_eq_some_iff.1 hx).1
        rw [textuals_get, hx] at this
        exact this.symm
      constructor
      · rw [List.pairwise_iff_getElem]
        intro a b ha hb hab
        have gb := List.getElem?_eq_getElem hb
        have ga := List.getElem?_eq_getElem ha
        -- the first scalar of b
        have hsb := leafSeq_arr hc.2.1 hl gb
        have hnb : under (string2TextNumber (intDec (b : Int))) ls ≠ [] := by
          have := leaves_ne_nil xs[b] (queryCleans_get hc.2.2 gb)
          obtain ⟨q, hq⟩ := List.exists_mem_of_ne_nil _ this
          exact List.ne_nil_of_mem ((hsb.2 _).2 ⟨q, hq, rfl⟩)
        obtain ⟨q0, t0, l1, l2, hsplit, hfirst⟩ : ∃ (q0 : List TextNumber) (t0 : Bytes) (l1 l2 : List (List TextNumber × Bytes)),
            ls = l1 ++ (string2TextNumber (intDec (b : Int)) :: q0, t0) :: l2 ∧ under (string2TextNumber (intDec (b : Int))) l1 = [] := by
          clear hsb hg hr e he hstart hform hne hl
          induction ls with
          | nil => exact absurd rfl hnb
          | cons l ls ih' =>
            obtain ⟨p, t⟩ := l
            cases p with
            | nil =>
              obtain ⟨q0, t0, l1, l2, h1, h2⟩ := ih' (by simpa [under] using hnb)
              exact ⟨q0, t0, ([], t) :: l1, l2, by rw [h1]; rfl, by simpa [under] using h2⟩
            | cons s p =>
              by_cases hs : s = string2TextNumber (intDec (b : Int))
              · subst hs
                exact ⟨p, t, [], ls, rfl, rfl⟩
              · rw [under_cons_ne hs] at hnb
                obtain ⟨q0, t0, l1, l2, h1, h2⟩ := ih' hnb
                exact ⟨q0, t0, (s :: p, t) :: l1, l2, by rw [h1]; rfl, by rw [under_cons_ne hs]; exact h2⟩
        obtain ⟨s', p, u, hm, hsn⟩ := inRange_before hr hsplit (by rw [hnum b hb]) hab (Nat.zero_le _)
        -- it is a scalar of a
        have hin : (s' :: p, u) ∈ ls := by rw [hsplit]; simp [hm]
        have hs' : s' = string2TextNumber (intDec (a : Int)) := by
          obtain ⟨i, p', hi, hp'⟩ := hform _ hin
          simp only [List.cons.injEq] at hp'
          have := hp'.1
          rw [this, hnum i hi] at hsn
          simp only at hsn
          have : i = a := by omega
          subst this
          exact hp'.1
        subst hs'
        obtain ⟨qa, hqa, hea⟩ := ((leafSeq_arr hc.2.1 hl ga).2 (p, u)).1 (mem_under.2 hin)
        refine ⟨qa, hqa, fun qb hqb => ?_⟩
        have hinb := (mem_under.1 ((hsb.2 (segsOf qb.1, qb.2)).2 ⟨qb, hqb, rfl⟩))
        have hlt : segsLess (string2TextNumber (intDec (a : Int)) :: p) (string2TextNumber (intDec (b : Int)) :: segsOf qb.1) = true := by
          have hi := hl.1
          unfold Incr at hi
          rw [hsplit] at hinb hi
          rcases List.mem_append.1 hinb with h' | h'
          · have := mem_under.2 h'
            rw [hfirst] at this
            cases this
          · exact (List.pairwise_append.1 hi).2.2 _ hm _ h'
        have := segsLess_length hlt
        simp only [Prod.mk.injEq] at hea
        rw [hea.1] at this
        simpa [segsOf] using this
      · exact queryOrders_iff.2 fun x hx => by
          obtain ⟨j, hj⟩ := List.getElem?_of_mem hx
          exact hchild j x hj
  | dict id kvs ih =>
    intro hw hc ls hl he
    have hne : ls ≠ [] := by
      rintro rfl
      simp [foldB] at he
    simp only [J.QueryClean] at hc
    simp only [J.leaves] at hl
    simp only [J.textual] at he
    have hs := WF_dict_sorted hw
    simp only [J.QueryOrder]
    cases ls with
    | nil => exact absurd rfl hne
    | cons l ls' =>
      obtain ⟨p0, t⟩ := l
      obtain ⟨q, hq, hq'⟩ := (hl.2 _).1 (List.mem_cons_self (l := ls'))
      obtain ⟨k0, x0, h1, q0, h2, rfl⟩ := mem_leavesf.1 hq
      simp only [Prod.mk.injEq] at hq'
      obtain ⟨rfl, rfl⟩ := hq'
      have hz : ¬ ((string2TextNumber k0).isNumber = true ∧ (string2TextNumber k0).number = 0) := by
        intro hz
        have e' : stepB none (segsOf (k0 :: q0.1), q0.2) = stepB (some (.arr [])) (segsOf (k0 :: q0.1), q0.2) := stepB_none_arr hz _ _
        rw [foldB_cons, e', ← foldB_cons] at he
        obtain ⟨m', hm'⟩ := foldB_arr_kind [] ((segsOf (k0 :: q0.1), q0.2) :: ls')
        rw [hm'] at he
        cases he
      have e' : stepB none (segsOf (k0 :: q0.1), q0.2) = stepB (some (.dict 0 [])) (segsOf (k0 :: q0.1), q0.2) := stepB_none_dict hz _ _
      rw [foldB_cons, e', ← foldB_cons] at he
      refine ⟨fun x hx => ⟨k0, x0, h1, q0, h2, fun q hq => ?_⟩, queryOrderf_iff.2 fun e he' =>
        ih e.1 e.2 he' ((wf_dict_iff.1 hw).2 e he') (queryCleanf_get hc.2.2 he') _ (leafSeq_dict hs hc.2.1 hl he') (fold_dict_children hs hc.2.1 hl he he')⟩
      have hk0 : k0 ≠ b!"0" := fun h => hz ((isNumber_zero (hc.2.1 _ h1)).2 h)
      have hin := (hl.2 (segsOf (b!"0" :: q.1), q.2)).2 ⟨(b!"0" :: q.1, q.2), mem_leavesf.2 ⟨_, x, hx, q, hq, rfl⟩, rfl⟩
      simp only [List.mem_cons] at hin
      have hlt : segsLess (string2TextNumber k0 :: segsOf q0.1) (string2TextNumber b!"0" :: segsOf q.1) = true := by
        rcases hin with hin | hin
        · exfalso
          simp only [segsOf, List.map_cons, Prod.mk.injEq, List.cons.injEq] at hin
          exact hk0 (string2TextNumber_inj ((toText_eq_iff _).2 (hc.2.1 _ h1).2) ((toText_eq_iff _).2 (hc.2.1 _ hx).2) hin.1.1.symm)
        · have := hl.1
          unfold Incr at this
          exact (List.pairwise_cons.1 this).1 _ hin
      have := less_zero hk0 (hc.2.1 _ h1) _ _ hlt
      simpa [segsOf] using this
  | null => intros; trivial
  | bool b => intros; trivial
  | int n => intros; trivial
  | float x b => intros; trivial
  | str s => intros; trivial
  | ptr i => intros; trivial

/-! ### the loop over the keys -/

theorem addAllSegs_fold (m : Values) (txt : List TextNumber → Bytes) : ∀ (srt : List (List TextNumber)) (d : SMap J),
    (∀ p ∈ srt, p ≠ [] ∧ valuesGet m (segments2string p) = [txt p]) →
    ∃ d', addAllSegs m srt (.dict 0 d) = .ok (.dict 0 d') ∧ foldB (some (.dict 0 d)) (srt.map fun p => (p, txt p)) = some (.dict 0 d') := by
  intro srt
  induction srt with
  | nil => intro d _; exact ⟨d, rfl, rfl⟩
  | cons p rest ih =>
    intro d h
    obtain ⟨hp, hv⟩ := h p (by simp)
    cases p with
    | nil => exact absurd rfl hp
    | cons s p =>
      obtain ⟨y, _, hy⟩ := stepB_dict 0 d s p (txt (s :: p))
      obtain ⟨d', e1, e2⟩ := ih (smAdd d s.toText y) fun q hq => h q (by simp [hq])
      refine ⟨d', ?_, ?_⟩
      · simp only [addAllSegs, hv]
        simp only [stepB] at hy
        have hok : ∃ b, (addSeg (s :: p) (some (.dict 0 d)) [txt (s :: p)]).2 = .ok b := by
          rw [addSeg_dict s p [txt (s :: p)] 0 d _ (Or.inl rfl)]
          obtain ⟨z, hz⟩ := addSeg_none_ok p (txt (s :: p))
          split
          · simp only [hz]; exact ⟨_, rfl⟩
          · exact ⟨_, rfl⟩
        obtain ⟨b, hb⟩ := hok
        generalize addSeg (s :: p) (some (.dict 0 d)) [txt (s :: p)] = r at hy hb
        obtain ⟨r1, r2⟩ := r
        simp only at hy hb
        subst hy hb
        exact e1
      · rw [List.map_cons, foldB_cons, hy]
        exact e2

/-- Exactly the documents with their scalars in order come back. -/
theorem query_exact {kvs : SMap J} (hw : (J.dict 0 kvs).WF) (hkeys : ∀ e ∈ kvs, QueryKey e.1) (hvals : J.QueryCleanf kvs)
    (hk : ∀ e ∈ kvs, e.1 ≠ []) (id : Int) :
    parseQueryString (J.dict id kvs).queryString = .ok (.dict 0 (J.textualf kvs)) ↔ J.QueryOrderf kvs := by
  constructor
  · intro h
    obtain ⟨m, srt, e1, e2, e3, e4⟩ := query_fold hw hkeys hvals hk id
    obtain ⟨d', h1, h2⟩ := addAllSegs_fold m (fun p => (valuesGet m (segments2string p)).headD []) srt [] fun p hp => by
      obtain ⟨l, hl, rfl⟩ := (e3 p).1 hp
      obtain ⟨k, x, _, q, _, rfl⟩ := mem_leavesf.1 hl
      refine ⟨by simp [segsOf], ?_⟩
      rw [e2 _ hl]
      rfl
    rw [e1, h1] at h
    have hd : d' = J.textualf kvs := by injection h with h; injection h
    subst hd
    have hs := WF_dict_sorted hw
    have hseq : LeafSeq (J.leavesf kvs) (srt.map fun p => (p, (valuesGet m (segments2string p)).headD [])) := by
      constructor
      · unfold Incr
        rw [List.pairwise_map]
        exact e4
      · intro l
        simp only [List.mem_map]
        constructor
        · rintro ⟨p, hp, rfl⟩
          obtain ⟨q, hq, rfl⟩ := (e3 p).1 hp
          exact ⟨q, hq, by rw [e2 q hq]; rfl⟩
        · rintro ⟨q, hq, rfl⟩
          exact ⟨segsOf q.1, (e3 _).2 ⟨q, hq, rfl⟩, by rw [e2 q hq]; rfl⟩
    exact queryOrderf_iff.2 fun e he => fold_order e.2 ((wf_dict_iff.1 hw).2 e he) (queryCleanf_get hvals he) _
      (leafSeq_dict hs hkeys hseq he) (fold_dict_children hs hkeys hseq h2 he)
  · intro h
    exact query_roundtrip ⟨hw, hkeys, hvals, h⟩ hk id

/-! ### what a parsed query string looks like -/

theorem queryTidys_iff {xs : List J} : J.QueryTidys xs ↔ ∀ x ∈ xs, x.QueryTidy := by
  induction xs with
  | nil => simp [J.QueryTidys]
  | cons x xs ih => simp [J.QueryTidys, ih]

theorem queryTidyf_iff {kvs : List (Bytes × J)} : J.QueryTidyf kvs ↔ ∀ e ∈ kvs, e.2.QueryTidy := by
  induction kvs with
  | nil => simp [J.QueryTidyf]
  | cons e r ih => obtain ⟨k, x⟩ := e; simp [J.QueryTidyf, ih]

theorem queryLeaf_tidy {vs : List Bytes} {x : J} (hx : queryLeaf vs = .ok x) : x.QueryTidy := by
  match vs with
  | [] => cases hx
  | [v] => cases hx; trivial
  | a :: b :: r =>
    cases hx
    refine ⟨by simp, queryTidys_iff.2 fun e he => ?_⟩
    obtain ⟨w, _, rfl⟩ := List.mem_map.1 he
    trivial

theorem tidy_smAdd {kvs : SMap J} (h : ∀ e ∈ kvs, QueryKey e.1 ∧ e.2.QueryTidy) {k : Bytes} (hk : QueryKey k) {x : J} (hx : x.QueryTidy) :
    ∀ e ∈ smAdd kvs k x, QueryKey e.1 ∧ e.2.QueryTidy := by
  intro e he
  rcases mem_smAdd he with he | he
  · subst he; exact ⟨hk, hx⟩
  · first
      | exact h e he
      | exact h e he.1

/-- Adding a value keeps a document tidy. -/
theorem addSeg_tidy : ∀ (segs : List TextNumber) (body : Option J) (val : List Bytes), (∀ s ∈ segs, QueryKey s.toText) → (∀ b, body = some b → b.QueryTidy) →
    (∀ b, (addSeg segs body val).1 = some b → b.QueryTidy) ∧ (∀ x, (addSeg segs body val).2 = .ok x → x.QueryTidy)
  | [], body, val, _, hb => ⟨hb, fun x hx => queryLeaf_tidy hx⟩
  | s :: segs, body, val, hs, hb => by
    have ih := addSeg_tidy segs none val (fun a ha => hs a (by simp [ha])) (by simp)
    have ih2 := fun (n : J) (hn : n.QueryTidy) => addSeg_tidy segs (some n) val (fun a ha => hs a (by simp [ha])) (by simpa using hn)
    have next : ∀ n : J, n.QueryTidy → (((addSeg segs (some n) val).1).getD n).QueryTidy := by
      intro n hn
      cases h : (addSeg segs (some n) val).1 with
      | none => exact hn
      | some b => exact (ih2 n hn).1 b h
    have both : ∀ w : J, w.QueryTidy → (∀ b, body.map (fun _ => w) = some b → b.QueryTidy) ∧ (∀ x, (Except.ok w : Except QErr J) = .ok x → x.QueryTidy) := by
      intro w hw
      refine ⟨fun b h => ?_, fun x h => by cases h; exact hw⟩
      cases body with
      | none => cases h
      | some b' => cases h; exact hw
    have err : ∀ e : QErr, (∀ b, body = some b → b.QueryTidy) ∧ (∀ x, (Except.error e : Except QErr J) = .ok x → x.QueryTidy) :=
      fun e => ⟨hb, fun x h => by cases h⟩
    have dict : ∀ id kvs, (∀ e ∈ kvs, QueryKey e.1 ∧ e.2.QueryTidy) → (body = some (.dict id kvs) ∨ (body = none ∧ id = 0 ∧ kvs = [] ∧ ¬ (s.isNumber = true ∧ s.number = 0))) →
        (∀ b, (addSeg (s :: segs) body val).1 = some b → b.QueryTidy) ∧ (∀ x, (addSeg (s :: segs) body val).2 = .ok x → x.QueryTidy) := by
      intro id kvs cur hbody
      have add : ∀ x : J, x.QueryTidy → (J.dict id (smAdd kvs s.toText x)).QueryTidy := fun x hx =>
        ⟨smAdd_ne_nil _ _ _, fun e he => (tidy_smAdd cur (hs s (by simp)) hx e he).1, queryTidyf_iff.2 fun e he => (tidy_smAdd cur (hs s (by simp)) hx e he).2⟩
      rw [addSeg_dict s segs val id kvs body hbody]
      cases hg : smGet kvs s.toText with
      | none =>
        simp only
        cases ha : (addSeg segs none val).2 with
        | error e => exact err e
        | ok n => exact both _ (add _ (ih.2 n ha))
      | some n => exact both _ (add _ (next n (cur _ (smGet_mem hg)).2))
    have arr : ∀ xs, (∀ e ∈ xs, J.QueryTidy e) → (body = some (.arr xs) ∨ (body = none ∧ xs = [] ∧ s.isNumber = true ∧ s.number = 0)) →
        (∀ b, (addSeg (s :: segs) body val).1 = some b → b.QueryTidy) ∧ (∀ x, (addSeg (s :: segs) body val).2 = .ok x → x.QueryTidy) := by
      intro xs cur hbody
      rw [addSeg_arr s segs val xs body hbody]
      split
      · cases hg : arrGetAt xs s.number with
        | ok n =>
          simp only
          have hn : n ∈ xs := by
            simp only [arrGetAt] at hg
            generalize (if s.number < 0 then (xs.length : Int) + s.number else s.number) = j at hg
            split at hg
            · split at hg
              · rename_i hx; cases hg; exact List.mem_of_getElem? hx
              · cases hg
            · cases hg
          refine both _ ⟨?_, queryTidys_iff.2 fun e he => ?_⟩
          · intro hc
            have := congrArg List.length hc
            simp only [List.length_set, List.length_nil, List.length_eq_zero_iff] at this
            rw [this] at hn; cases hn
          rcases List.mem_or_eq_of_mem_set he with he | rfl
          · exact cur e he
          · exact next n (cur n hn)
        | err e => exact err _
        | diverge => exact err _
      · split
        · cases ha : (addSeg segs none val).2 with
          | error e => exact err e
          | ok n =>
            refine both _ ⟨by simp, queryTidys_iff.2 fun e he => ?_⟩
            rcases List.mem_append.1 he with he | he
            · exact cur e he
            · rw [List.mem_singleton.1 he]; exact ih.2 n ha
        · exact err _
    cases body with
    | none =>
      by_cases hz : s.isNumber = true ∧ s.number = 0
      · exact arr [] (by simp) (Or.inr ⟨rfl, rfl, hz.1, hz.2⟩)
      · exact dict 0 [] (by simp) (Or.inr ⟨rfl, rfl, rfl, hz⟩)
    | some b =>
      cases b with
      | dict id kvs =>
        have := hb _ rfl
        simp only [J.QueryTidy] at this
        exact dict id kvs (fun e he => ⟨this.2.1 e he, queryTidyf_iff.1 this.2.2 e he⟩) (Or.inl rfl)
      | arr xs =>
        have := hb _ rfl
        simp only [J.QueryTidy] at this
        exact arr xs (queryTidys_iff.1 this.2) (Or.inl rfl)
      | _ => exact err _

/-- The top-level dictionary: it may be empty. -/
def RootTidy (v : J) : Prop := v = .dict 0 [] ∨ v.QueryTidy

theorem addAllSegs_shape (m : Values) : ∀ (l : List (List TextNumber)) (d v : J), (∀ p ∈ l, ∀ s ∈ p, QueryKey s.toText) → RootTidy d →
    addAllSegs m l d = .ok v → RootTidy v
  | [], d, v, _, hd, h => by cases h; exact hd
  | s :: l, d, v, hs, hd, h => by
    simp only [addAllSegs] at h
    have key : ∀ d', (addSeg s (some d) (valuesGet m (segments2string s))).1 = some d' → RootTidy d' := by
      intro d' hd'
      rcases hd with rfl | hd
      · cases s with
        | nil => cases hd'; exact Or.inl rfl
        | cons a s =>
          right
          rw [addSeg_dict a s _ 0 [] _ (Or.inl rfl)] at hd'
          simp only [smGet] at hd'
          cases ha : (addSeg s none (valuesGet m (segments2string (a :: s)))).2 with
          | error e =>
            exfalso
            have : (addSeg (a :: s) (some (.dict 0 [])) (valuesGet m (segments2string (a :: s)))).2 = .error e := by
              rw [addSeg_dict a s _ 0 [] _ (Or.inl rfl)]
              simp only [smGet, ha]
            generalize hr : addSeg (a :: s) (some (.dict 0 [])) (valuesGet m (segments2string (a :: s))) = r at h this
            obtain ⟨r1, r2⟩ := r
            simp only at this
            subst this
            cases h
          | ok n =>
            simp only [ha, Option.map_some, Option.some.injEq] at hd'
            subst hd'
            have hn := (addSeg_tidy s none _ (fun b hb => hs (a :: s) (by simp) b (by simp [hb])) (by simp)).2 n ha
            simp only [smAdd, J.QueryTidy, J.QueryTidyf, and_true]
            refine ⟨by simp, ?_, hn⟩
            intro e he
            simp only [List.mem_singleton] at he
            subst he
            exact hs (a :: s) (by simp) a (by simp)
      · exact Or.inr ((addSeg_tidy s (some d) _ (hs s (by simp)) (by intro b hb; cases hb; exact hd)).1 d' hd')
    split at h
    · cases h
    · rename_i d' o hd'
      refine addAllSegs_shape m l _ v (fun p hp => hs p (by simp [hp])) ?_ h
      cases d' with
      | none => exact hd
      | some w => exact key w (by rw [hd'])

theorem queryKey_piece {p : Bytes} (h : (46 : UInt8) ∉ p) : QueryKey (string2TextNumber p).toText := by
  by_cases hn : ∃ n, IsNumber p n
  · obtain ⟨n, hn⟩ := hn
    rw [string2TextNumber_number hn]
    exact queryKey_intDec n
  · rw [string2TextNumber_text hn]
    exact ⟨h, fun n hc => absurd ⟨n, hc⟩ hn⟩

theorem parse_shape {str : Bytes} {v : J} (h : parseQueryString str = .ok v) : RootTidy v := by
  unfold parseQueryString at h
  split at h
  · cases h
  · rename_i m _
    refine addAllSegs_shape m _ (.dict 0 []) v ?_ (Or.inl rfl) h
    intro p hp s hs
    rw [(sortSegs_perm _).mem_iff] at hp
    obtain ⟨kv, _, rfl⟩ := List.mem_map.1 hp
    unfold string2Segments at hs
    obtain ⟨q, hq, rfl⟩ := List.mem_map.1 hs
    exact queryKey_piece (splitOn_pieces 46 _ q hq)

mutual
theorem tidy_of_textual : (v : J) → v.textual.QueryTidy → v.QueryTidy
  | .arr xs, h => by
    simp only [J.textual, J.QueryTidy] at h
    refine ⟨?_, tidys_of_textual xs h.2⟩
    rintro rfl
    exact h.1 rfl
  | .dict _ kvs, h => by
    simp only [J.textual, J.QueryTidy] at h
    refine ⟨?_, keys_of_textual kvs h.2.1, tidyf_of_textual kvs h.2.2⟩
    rintro rfl
    exact h.1 rfl
  | .null, _ => trivial
  | .bool _, _ => trivial
  | .int _, _ => trivial
  | .float _ _, _ => trivial
  | .str _, _ => trivial
  | .ptr _, _ => trivial
theorem tidys_of_textual : (xs : List J) → J.QueryTidys (J.textuals xs) → J.QueryTidys xs
  | [], _ => trivial
  | x :: xs, h => ⟨tidy_of_textual x h.1, tidys_of_textual xs h.2⟩
theorem tidyf_of_textual : (kvs : List (Bytes × J)) → J.QueryTidyf (J.textualf kvs) → J.QueryTidyf kvs
  | [], _ => trivial
  | (_, x) :: kvs, h => ⟨tidy_of_textual x h.1, tidyf_of_textual kvs h.2⟩
theorem keys_of_textual : (kvs : List (Bytes × J)) → (∀ e ∈ J.textualf kvs, QueryKey e.1) → ∀ e ∈ kvs, QueryKey e.1
  | [], _ => by simp
  | (k, x) :: kvs, h => by
    intro e he
    simp only [List.mem_cons] at he
    rcases he with rfl | he
    · exact h (k, x.textual) (by simp [J.textualf])
    · exact keys_of_textual kvs (fun e he => h e (by simp [J.textualf, he])) e he
end

mutual
theorem clean_of : (v : J) → v.QuerySized → v.QueryTidy → v.QueryClean
  | .arr xs, h, t => by
    simp only [J.QuerySized] at h
    simp only [J.QueryTidy] at t
    exact ⟨t.1, h.1, cleans_of xs h.2 t.2⟩
  | .dict _ kvs, h, t => by
    simp only [J.QuerySized] at h
    simp only [J.QueryTidy] at t
    exact ⟨t.1, t.2.1, cleanf_of kvs h t.2.2⟩
  | .null, _, _ => trivial
  | .bool _, _, _ => trivial
  | .int _, _, _ => trivial
  | .float _ _, _, _ => trivial
  | .str _, _, _ => trivial
  | .ptr _, h, _ => absurd h (by simp [J.QuerySized])
theorem cleans_of : (xs : List J) → J.QuerySizeds xs → J.QueryTidys xs → J.QueryCleans xs
  | [], _, _ => trivial
  | x :: xs, h, t => ⟨clean_of x h.1 t.1, cleans_of xs h.2 t.2⟩
theorem cleanf_of : (kvs : List (Bytes × J)) → J.QuerySizedf kvs → J.QueryTidyf kvs → J.QueryCleanf kvs
  | [], _, _ => trivial
  | (_, x) :: kvs, h, t => ⟨clean_of x h.1 t.1, cleanf_of kvs h.2 t.2⟩
end

/-- Exactly the tidy documents with their scalars in order come back. -/
theorem query_exact_all {kvs : SMap J} (hw : (J.dict 0 kvs).WF) (hz : J.QuerySizedf kvs) (hk : ∀ e ∈ kvs, e.1 ≠ []) (id : Int) :
    parseQueryString (J.dict id kvs).queryString = .ok (.dict 0 (J.textualf kvs)) ↔
      (∀ e ∈ kvs, QueryKey e.1) ∧ J.QueryTidyf kvs ∧ J.QueryOrderf kvs := by
  constructor
  · intro h
    have hroot : (∀ e ∈ kvs, QueryKey e.1) ∧ J.QueryTidyf kvs := by
      rcases parse_shape h with he | he
      · injection he with _ he
        cases kvs with
        | nil => exact ⟨by simp, trivial⟩
        | cons e r => obtain ⟨k, x⟩ := e; cases he
      · simp only [J.QueryTidy] at he
        exact ⟨keys_of_textual kvs he.2.1, tidyf_of_textual kvs he.2.2⟩
    exact ⟨hroot.1, hroot.2, (query_exact hw hroot.1 (cleanf_of kvs hz hroot.2) hk id).1 h⟩
  · rintro ⟨h1, h2, h3⟩
    exact (query_exact hw h1 (cleanf_of kvs hz h2) hk id).2 h3

end Jsonutils
