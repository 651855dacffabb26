import Verif.Model.Segments
import Verif.Spec.Query
import Verif.Proofs.Text

/-! Order and conversion of dotted keys. -/

namespace Jsonutils

/-! ### split and join -/

theorem splitOn_ne_nil (sep : UInt8) (s : Bytes) : splitOn sep s ≠ [] := by
  induction s with
  | nil => simp [splitOn]
  | cons c s ih =>
    unfold splitOn
    split
    · simp
    · split <;> simp

theorem splitOn_noSep (sep : UInt8) (s : Bytes) (h : sep ∉ s) : splitOn sep s = [s] := by
  induction s with
  | nil => rfl
  | cons c s ih =>
    simp only [List.mem_cons, not_or] at h
    unfold splitOn
    rw [if_neg (fun e => h.1 e.symm), ih h.2]

theorem splitOn_append (sep : UInt8) (p s : Bytes) (h : sep ∉ p) : splitOn sep (p ++ sep :: s) = p :: splitOn sep s := by
  induction p with
  | nil => simp [splitOn]
  | cons c p ih =>
    simp only [List.mem_cons, not_or] at h
    rw [List.cons_append, splitOn, if_neg (fun e => h.1 e.symm), ih h.2]

theorem splitOn_join (sep : UInt8) (ps : List Bytes) (hne : ps ≠ []) (h : ∀ p ∈ ps, sep ∉ p) :
    splitOn sep (joinWith [sep] ps) = ps := by
  induction ps with
  | nil => exact absurd rfl hne
  | cons p ps ih =>
    cases ps with
    | nil => exact splitOn_noSep sep p (h p (by simp))
    | cons q r =>
      show splitOn sep (p ++ [sep] ++ joinWith [sep] (q :: r)) = _
      rw [List.append_assoc, List.singleton_append, splitOn_append sep p _ (h p (by simp)),
        ih (by simp) fun x hx => h x (by simp [hx])]

theorem join_splitOn (sep : UInt8) (s : Bytes) : joinWith [sep] (splitOn sep s) = s := by
  induction s with
  | nil => rfl
  | cons c s ih =>
    unfold splitOn
    split
    · rename_i h
      cases hs : splitOn sep s with
      | nil => exact absurd hs (splitOn_ne_nil sep s)
      | cons p ps => rw [hs] at ih; show [] ++ [sep] ++ joinWith [sep] (p :: ps) = _; rw [ih, h]; rfl
    · cases hs : splitOn sep s with
      | nil => exact absurd hs (splitOn_ne_nil sep s)
      | cons p ps =>
        rw [hs] at ih
        simp only
        cases ps with
        | nil => simp only [joinWith] at ih ⊢; rw [ih]
        | cons q r => simp only [joinWith] at ih ⊢; rw [← ih]; rfl

theorem splitOn_pieces (sep : UInt8) (s : Bytes) : ∀ p ∈ splitOn sep s, sep ∉ p := by
  induction s with
  | nil => simp [splitOn]
  | cons c s ih =>
    unfold splitOn
    split
    · intro p hp
      simp only [List.mem_cons] at hp
      rcases hp with rfl | hp
      · simp
      · exact ih p hp
    · rename_i h
      cases hs : splitOn sep s with
      | nil => exact absurd hs (splitOn_ne_nil sep s)
      | cons q r =>
        rw [hs] at ih
        intro p hp
        simp only [List.mem_cons] at hp
        rcases hp with rfl | hp
        · simp only [List.mem_cons, not_or]
          exact ⟨fun e => h e.symm, ih q (by simp)⟩
        · exact ih p (by simp [hp])

theorem joinWith_eq (sep : Bytes) (ps : List Bytes) : joinWith sep ps = List.intercalate sep ps := by
  induction ps with
  | nil => rfl
  | cons p ps ih =>
    cases ps with
    | nil => simp [joinWith, List.intercalate]
    | cons q r =>
      simp only [joinWith]
      rw [ih]
      simp [List.intercalate, List.intersperse]

theorem pieces_iff (key : Bytes) (ps : List Bytes) : Pieces key ps ↔ splitOn 46 key = ps := by
  constructor
  · rintro ⟨h1, h2, h3⟩
    rw [← h3, ← joinWith_eq]
    exact splitOn_join 46 ps h1 h2
  · rintro rfl
    refine ⟨splitOn_ne_nil _ _, splitOn_pieces _ _, ?_⟩
    rw [← joinWith_eq, join_splitOn]

/-! ### segments -/

theorem string2TextNumber_number {p : Bytes} {n : Int} (h : IsNumber p n) : string2TextNumber p = ⟨[], n, true⟩ := by
  unfold string2TextNumber
  rw [(parseInt_iff p n).2 h]

theorem string2TextNumber_text {p : Bytes} (h : ¬ ∃ n, IsNumber p n) : string2TextNumber p = ⟨p, 0, false⟩ := by
  unfold string2TextNumber
  cases hp : parseInt p with
  | none => rfl
  | some n => exact absurd ⟨n, (parseInt_iff p n).1 hp⟩ h

theorem isNumber_fun {p : Bytes} {m n : Int} (h : IsNumber p m) (h' : IsNumber p n) : m = n := by
  have := (parseInt_iff p m).2 h
  rw [(parseInt_iff p n).2 h'] at this
  exact (Option.some.inj this).symm

theorem isNumber_intDec {n : Int} (h : InI64 n) : IsNumber (intDec n) n := (parseInt_iff _ _).1 (parseInt_intDec n h)

/-- Segments as `string2TextNumber` makes them. -/
def TextNumber.Made (a : TextNumber) : Prop := ∃ p, string2TextNumber p = a

theorem made_cases {a : TextNumber} (h : a.Made) :
    (∃ n, InI64 n ∧ a = ⟨[], n, true⟩) ∨ (∃ p, (¬ ∃ n, IsNumber p n) ∧ a = ⟨p, 0, false⟩) := by
  obtain ⟨p, rfl⟩ := h
  by_cases hp : ∃ n, IsNumber p n
  · obtain ⟨n, hn⟩ := hp
    exact Or.inl ⟨n, hn.2, string2TextNumber_number hn⟩
  · exact Or.inr ⟨p, hp, string2TextNumber_text hp⟩

theorem compare_zero {a b : TextNumber} (ha : a.Made) (hb : b.Made) : a.compare b = 0 ↔ a = b := by
  rcases made_cases ha with ⟨m, _, rfl⟩ | ⟨p, _, rfl⟩ <;> rcases made_cases hb with ⟨n, _, rfl⟩ | ⟨q, _, rfl⟩ <;>
    simp [TextNumber.compare]
  · by_cases h1 : m < n
    · simp [h1]; omega
    · by_cases h2 : n < m
      · simp [h1, h2]; omega
      · simp [h1, h2]; omega
  · rcases blt_total p q with h | h | h
    · simp [h, blt_ne h]
    · subst h; simp [blt_irrefl]
    · simp [h, blt_asymm h, (blt_ne h).symm]

theorem compare_neg_symm (a b : TextNumber) : a.compare b < 0 ↔ 0 < b.compare a := by
  unfold TextNumber.compare
  cases ha : a.isNumber <;> cases hb : b.isNumber <;> simp
  · rcases blt_total a.text b.text with h | h | h
    · simp [h, blt_asymm h]
    · simp [h, blt_irrefl]
    · simp [h, blt_asymm h]
  · split <;> (try split) <;> (try split) <;> simp <;> omega

theorem compare_trans {a b c : TextNumber} (h1 : a.compare b < 0) (h2 : b.compare c < 0) : a.compare c < 0 := by
  unfold TextNumber.compare at *
  cases ha : a.isNumber <;> cases hb : b.isNumber <;> cases hc : c.isNumber <;> simp [ha, hb, hc] at h1 h2 ⊢
  · have e1 : blt a.text b.text = true := by
      cases h : blt a.text b.text with
      | true => rfl
      | false => simp [h] at h1; split at h1 <;> simp at h1
    have e2 : blt b.text c.text = true := by
      cases h : blt b.text c.text with
      | true => rfl
      | false => simp [h] at h2; split at h2 <;> simp at h2
    simp [blt_trans e1 e2]
  · have e1 : a.number < b.number := by
      by_cases h : a.number < b.number
      · exact h
      · simp [h] at h1; split at h1 <;> simp at h1
    have e2 : b.number < c.number := by
      by_cases h : b.number < c.number
      · exact h
      · simp [h] at h2; split at h2 <;> simp at h2
    simp [show a.number < c.number by omega]

theorem compare_self (a : TextNumber) : a.compare a = 0 := by
  unfold TextNumber.compare
  cases ha : a.isNumber <;> simp [blt_irrefl]

/-- Lists of such segments. -/
def Mades (l : List TextNumber) : Prop := ∀ a ∈ l, a.Made

theorem segsLessLoop_irrefl (a : List TextNumber) : segsLessLoop a a = false := by
  induction a with
  | nil => rfl
  | cons x xs ih => simp [segsLessLoop, compare_self, ih]

theorem segsLess_irrefl (a : List TextNumber) : segsLess a a = false := by simp [segsLess, segsLessLoop_irrefl]

theorem segsLessLoop_total {a b : List TextNumber} (ha : Mades a) (hb : Mades b) (hl : a.length = b.length) :
    segsLessLoop a b = true ∨ a = b ∨ segsLessLoop b a = true := by
  induction a generalizing b with
  | nil => cases b <;> simp_all
  | cons x xs ih =>
    cases b with
    | nil => simp at hl
    | cons y ys =>
      simp only [List.length_cons, Nat.add_right_cancel_iff] at hl
      simp only [segsLessLoop]
      rcases Int.lt_trichotomy (x.compare y) 0 with h | h | h
      · simp [h]
      · have hxy := (compare_zero (ha x (by simp)) (hb y (by simp))).1 h
        subst hxy
        simp only [compare_self]
        simpa using ih (fun a h => ha a (by simp [h])) (fun a h => hb a (by simp [h])) hl
      · have := (compare_neg_symm y x).2 h
        simp [this]

theorem segsLess_total {a b : List TextNumber} (ha : Mades a) (hb : Mades b) :
    segsLess a b = true ∨ a = b ∨ segsLess b a = true := by
  unfold segsLess
  by_cases h1 : a.length < b.length
  · simp [h1]
  · by_cases h2 : b.length < a.length
    · simp [h2]
    · simp only [h1, h2, if_false]
      exact segsLessLoop_total ha hb (by omega)

theorem segsLessLoop_trans {a b c : List TextNumber} (ha : Mades a) (hb : Mades b) (hc : Mades c)
    (h1 : segsLessLoop a b = true) (h2 : segsLessLoop b c = true) : segsLessLoop a c = true := by
  induction a generalizing b c with
  | nil => simp [segsLessLoop] at h1
  | cons x xs ih =>
    cases b with
    | nil => simp [segsLessLoop] at h1
    | cons y ys =>
      cases c with
      | nil => simp [segsLessLoop] at h2
      | cons z zs =>
        simp only [segsLessLoop] at *
        rcases Int.lt_trichotomy (x.compare y) 0 with h | h | h
        · rcases Int.lt_trichotomy (y.compare z) 0 with h' | h' | h'
          · simp [compare_trans h h']
          · have := (compare_zero (hb y (by simp)) (hc z (by simp))).1 h'
            subst this; simp [h]
          · have e : ¬ y.compare z < 0 := by omega
            simp [e, h'] at h2
        · have := (compare_zero (ha x (by simp)) (hb y (by simp))).1 h
          subst this
          rw [compare_self] at h1
          simp at h1
          rcases Int.lt_trichotomy (x.compare z) 0 with h' | h' | h'
          · simp [h']
          · have e : ¬ x.compare z < 0 := by omega
            simp only [h', Int.lt_irrefl, gt_iff_lt, if_false] at h2 ⊢
            exact ih (fun a h => ha a (by simp [h])) (fun a h => hb a (by simp [h])) (fun a h => hc a (by simp [h])) h1 h2
          · have e : ¬ x.compare z < 0 := by omega
            simp [e, h'] at h2
        · have e : ¬ x.compare y < 0 := by omega
          simp [e, h] at h1

theorem segsLess_iff (a b : List TextNumber) : segsLess a b = true ↔
    a.length < b.length ∨ (a.length = b.length ∧ segsLessLoop a b = true) := by
  unfold segsLess
  by_cases h1 : a.length < b.length
  · simp [h1]
  · by_cases h2 : b.length < a.length
    · simp [h1, h2]; omega
    · simp only [h1, h2, if_false, false_or]
      exact ⟨fun h => ⟨by omega, h⟩, fun h => h.2⟩

theorem segsLess_trans {a b c : List TextNumber} (ha : Mades a) (hb : Mades b) (hc : Mades c)
    (h1 : segsLess a b = true) (h2 : segsLess b c = true) : segsLess a c = true := by
  rw [segsLess_iff] at *
  rcases h1 with h1 | ⟨e1, h1⟩ <;> rcases h2 with h2 | ⟨e2, h2⟩
  · left; omega
  · left; omega
  · left; omega
  · exact Or.inr ⟨by omega, segsLessLoop_trans ha hb hc h1 h2⟩

theorem segsLess_asymm {a b : List TextNumber} (ha : Mades a) (hb : Mades b) (h : segsLess a b = true) : segsLess b a = false := by
  cases h' : segsLess b a with
  | false => rfl
  | true =>
    have := segsLess_trans ha hb ha h h'
    rw [segsLess_irrefl] at this
    cases this

theorem segsLess_cons (x : TextNumber) (a b : List TextNumber) : segsLess (x :: a) (x :: b) = segsLess a b := by
  rw [Bool.eq_iff_iff, segsLess_iff, segsLess_iff]
  simp [segsLessLoop, compare_self]

theorem mades_string2Segments (s : Bytes) : Mades (string2Segments s) := by
  intro a ha
  simp only [string2Segments, List.mem_map] at ha
  obtain ⟨p, _, rfl⟩ := ha
  exact ⟨p, rfl⟩

/-! ### sorting -/

/-- `l` is in order: no later element is less than an earlier one (what a sorting algorithm guarantees). -/
def SegsSorted (l : List (List TextNumber)) : Prop := l.Pairwise fun a b => segsLess b a = false

theorem insertSegs_perm (x : List TextNumber) (l : List (List TextNumber)) : (insertSegs x l).Perm (x :: l) := by
  induction l with
  | nil => exact .refl _
  | cons y ys ih =>
    unfold insertSegs
    split
    · exact (ih.cons y).trans (.swap x y ys)
    · exact .refl _

theorem sortSegs_perm (l : List (List TextNumber)) : (sortSegs l).Perm l := by
  induction l with
  | nil => exact .refl _
  | cons x xs ih => exact (insertSegs_perm x _).trans (ih.cons x)

theorem insertSegs_sorted {x : List TextNumber} {l : List (List TextNumber)} (hx : Mades x) (hl : ∀ y ∈ l, Mades y)
    (h : SegsSorted l) : SegsSorted (insertSegs x l) := by
  induction l with
  | nil => exact List.pairwise_singleton _ _
  | cons y ys ih =>
    unfold insertSegs
    have hy := hl y (by simp)
    have hys : ∀ z ∈ ys, Mades z := fun z hz => hl z (by simp [hz])
    obtain ⟨h1, h2⟩ := List.pairwise_cons.1 h
    split
    · rename_i hlt
      refine List.pairwise_cons.2 ⟨fun z hz => ?_, ih hys h2⟩
      have hz' := (insertSegs_perm x ys).subset hz
      simp only [List.mem_cons] at hz'
      rcases hz' with rfl | hz'
      · exact segsLess_asymm hy hx hlt
      · exact h1 z hz'
    · rename_i hnlt
      refine List.pairwise_cons.2 ⟨fun z hz => ?_, h⟩
      simp only [List.mem_cons] at hz
      rcases hz with rfl | hz
      · simpa using hnlt
      · cases hzx : segsLess z x with
        | false => rfl
        | true =>
          rcases segsLess_total hy hx with h' | h' | h'
          · exact absurd h' hnlt
          · subst h'; rw [h1 z hz] at hzx; cases hzx
          · have := segsLess_trans (hys z hz) hx hy hzx h'
            rw [h1 z hz] at this; cases this

theorem sortSegs_sorted {l : List (List TextNumber)} (hl : ∀ y ∈ l, Mades y) : SegsSorted (sortSegs l) := by
  induction l with
  | nil => exact .nil
  | cons x xs ih =>
    refine insertSegs_sorted (hl x (by simp)) (fun y hy => hl y ?_) (ih fun y hy => hl y (by simp [hy]))
    exact List.mem_cons_of_mem _ ((sortSegs_perm xs).subset hy)

/-- Sorted permutations of the same segments are equal: the outcome of sorting does not depend on the algorithm or on
the initial order. -/
theorem sorted_perm_eq {l m : List (List TextNumber)} (hp : l.Perm m) (hl : SegsSorted l) (hm : SegsSorted m)
    (h : ∀ y ∈ l, Mades y) : l = m := by
  refine hp.eq_of_pairwise (fun a b ha hb h1 h2 => ?_) hl hm
  rcases segsLess_total (h a ha) (h b (hp.symm.subset hb)) with h' | h' | h'
  · rw [h'] at h2; cases h2
  · exact h'
  · rw [h'] at h1; cases h1

/-! ### agreement with the specification -/

theorem tied_iff (p q : Bytes) : PieceTied p q ↔ string2TextNumber p = string2TextNumber q := by
  constructor
  · rintro (rfl | ⟨n, h1, h2⟩)
    · rfl
    · rw [string2TextNumber_number h1, string2TextNumber_number h2]
  · intro h
    by_cases hp : ∃ n, IsNumber p n
    · obtain ⟨m, hm⟩ := hp
      by_cases hq : ∃ n, IsNumber q n
      · obtain ⟨n, hn⟩ := hq
        rw [string2TextNumber_number hm, string2TextNumber_number hn] at h
        simp only [TextNumber.mk.injEq, and_true, true_and] at h
        subst h
        exact Or.inr ⟨m, hm, hn⟩
      · rw [string2TextNumber_number hm, string2TextNumber_text hq] at h
        simp at h
    · by_cases hq : ∃ n, IsNumber q n
      · obtain ⟨n, hn⟩ := hq
        rw [string2TextNumber_text hp, string2TextNumber_number hn] at h
        simp at h
      · rw [string2TextNumber_text hp, string2TextNumber_text hq] at h
        simp only [TextNumber.mk.injEq, and_true] at h
        exact Or.inl h

theorem before_iff (p q : Bytes) : PieceBefore p q ↔ (string2TextNumber p).compare (string2TextNumber q) < 0 := by
  unfold PieceBefore
  by_cases hp : ∃ n, IsNumber p n <;> by_cases hq : ∃ n, IsNumber q n
  · obtain ⟨m, hm⟩ := hp
    obtain ⟨n, hn⟩ := hq
    have h2 : ∃ n, IsNumber q n := ⟨n, hn⟩
    have h1 : ∃ n, IsNumber p n := ⟨m, hm⟩
    rw [string2TextNumber_number hm, string2TextNumber_number hn]
    simp only [h1, h2, not_true, and_false, or_false, false_and]
    unfold TextNumber.compare
    simp only [Bool.not_true, Bool.and_false, Bool.false_eq_true, if_false, Bool.false_and, Bool.and_self, if_true]
    constructor
    · rintro ⟨m', n', a, b, c⟩
      rw [isNumber_fun a hm, isNumber_fun b hn] at c
      simp [c]
    · intro h
      refine ⟨m, n, hm, hn, ?_⟩
      by_cases h' : m < n
      · exact h'
      · simp only [h', if_false] at h; split at h <;> simp at h
  · obtain ⟨m, hm⟩ := hp
    have h1 : ∃ n, IsNumber p n := ⟨m, hm⟩
    rw [string2TextNumber_number hm, string2TextNumber_text hq]
    simp [h1, hq, TextNumber.compare]
  · obtain ⟨n, hn⟩ := hq
    have h2 : ∃ n, IsNumber q n := ⟨n, hn⟩
    rw [string2TextNumber_number hn, string2TextNumber_text hp]
    simp only [hp, h2, not_true, and_false, or_false, false_and, not_false_eq_true]
    constructor
    · rintro ⟨m, _, a, _⟩; exact absurd ⟨m, a⟩ hp
    · intro h; simp [TextNumber.compare] at h
  · rw [string2TextNumber_text hp, string2TextNumber_text hq]
    have e1 : ¬ ∃ m n, IsNumber p m ∧ IsNumber q n ∧ m < n := fun ⟨m, _, a, _⟩ => hp ⟨m, a⟩
    simp only [e1, hp, hq, not_false_eq_true, true_and, and_true, false_or]
    unfold TextNumber.compare
    simp only [Bool.false_and, Bool.not_false, Bool.and_false, Bool.false_eq_true, if_false]
    cases hb : blt p q
    · simp only [Bool.false_eq_true, if_false, false_iff]
      split <;> simp
    · simp

theorem loop_iff (ps qs : List Bytes) (hl : ps.length = qs.length) :
    segsLessLoop (ps.map string2TextNumber) (qs.map string2TextNumber) = true ↔
    ∃ (i : Nat) (p q : Bytes), ps[i]? = some p ∧ qs[i]? = some q ∧ PieceBefore p q ∧
      ∀ (j : Nat) (p' q' : Bytes), j < i → ps[j]? = some p' → qs[j]? = some q' → PieceTied p' q' := by
  induction ps generalizing qs with
  | nil => simp [segsLessLoop]
  | cons p ps ih =>
    cases qs with
    | nil => simp at hl
    | cons q qs =>
      simp only [List.length_cons, Nat.add_right_cancel_iff] at hl
      simp only [List.map_cons, segsLessLoop]
      by_cases h1 : PieceBefore p q
      · rw [if_pos ((before_iff p q).1 h1)]
        refine ⟨fun _ => ⟨0, p, q, rfl, rfl, h1, fun j p' q' hj => by omega⟩, fun _ => rfl⟩
      · rw [if_neg (fun h => h1 ((before_iff p q).2 h))]
        by_cases h2 : PieceTied p q
        · have e := (tied_iff p q).1 h2
          rw [e, compare_self]
          simp only [gt_iff_lt, Int.lt_irrefl, if_false]
          rw [ih qs hl]
          constructor
          · rintro ⟨i, p', q', a, b, c, d⟩
            refine ⟨i + 1, p', q', by simpa using a, by simpa using b, c, fun j x y hj hx hy => ?_⟩
            cases j with
            | zero => simp only [List.getElem?_cons_zero, Option.some.injEq] at hx hy; subst hx; subst hy; exact h2
            | succ j => exact d j x y (by omega) (by simpa using hx) (by simpa using hy)
          · rintro ⟨i, p', q', a, b, c, d⟩
            cases i with
            | zero =>
              simp only [List.getElem?_cons_zero, Option.some.injEq] at a b; subst a; subst b
              exact absurd c h1
            | succ i =>
              refine ⟨i, p', q', by simpa using a, by simpa using b, c, fun j x y hj hx hy => ?_⟩
              exact d (j + 1) x y (by omega) (by simpa using hx) (by simpa using hy)
        · have e : 0 < (string2TextNumber p).compare (string2TextNumber q) := by
            rcases Int.lt_trichotomy ((string2TextNumber p).compare (string2TextNumber q)) 0 with h | h | h
            · exact absurd ((before_iff p q).2 h) h1
            · exact absurd ((tied_iff p q).2 ((compare_zero ⟨p, rfl⟩ ⟨q, rfl⟩).1 h)) h2
            · exact h
          rw [if_pos e]
          simp only [Bool.false_eq_true, false_iff]
          rintro ⟨i, p', q', a, b, c, d⟩
          cases i with
          | zero =>
            simp only [List.getElem?_cons_zero, Option.some.injEq] at a b; subst a; subst b
            exact h1 c
          | succ i => exact h2 (d 0 p q (by omega) rfl rfl)

theorem less_iff (k k' : Bytes) (ps qs : List Bytes) (hp : Pieces k ps) (hq : Pieces k' qs) :
    segsLess (string2Segments k) (string2Segments k') = true ↔ KeyBefore ps qs := by
  rw [pieces_iff] at hp hq
  unfold string2Segments KeyBefore
  rw [hp, hq, segsLess_iff]
  simp only [List.length_map]
  constructor
  · rintro (h | ⟨h1, h2⟩)
    · exact Or.inl h
    · exact Or.inr ⟨h1, (loop_iff ps qs h1).1 h2⟩
  · rintro (h | ⟨h1, h2⟩)
    · exact Or.inl h
    · exact Or.inr ⟨h1, (loop_iff ps qs h1).2 h2⟩

/-! ### canonical text -/

theorem snocInd {α} {P : List α → Prop} (nil : P []) (snoc : ∀ l c, P l → P (l ++ [c])) (l : List α) : P l := by
  have : ∀ r : List α, P r.reverse := by
    intro r
    induction r with
    | nil => exact nil
    | cons c r ih => rw [List.reverse_cons]; exact snoc _ _ ih
  simpa using this l.reverse

theorem canonical_intDec {p : Bytes} {n : Int} (h : IsNumber p n) (hc : CanonicalDecimal p) : intDec n = p := by
  have inj : ∀ ds : Bytes, (∀ d ∈ ds, isDigit d = true) → (∀ c t, ds = c :: t → c ≠ 48) → ds ≠ [] →
      natDec (decimalValue ds) = ds ∧ decimalValue ds ≠ 0 := by
    intro ds
    induction ds using snocInd with
    | nil => intro _ _ h; exact absurd rfl h
    | snoc l c ih =>
      intro hd hh _
      have hc : isDigit c = true := hd c (by simp)
      rw [isDigit_iff] at hc
      have hb : c = digitByte (c.toNat - 48) := by
        apply UInt8.toNat_inj.1
        rw [digitByte_toNat (by omega)]; omega
      have hv : decimalValue (l ++ [c]) = 10 * decimalValue l + (c.toNat - 48) := by
        simp [decimalValue, List.foldl_append]
      cases l with
      | nil =>
        have : c ≠ 48 := hh c [] rfl
        have hcn : c.toNat ≠ 48 := fun e => this (UInt8.toNat_inj.1 (by simpa using e))
        rw [hv]
        simp only [decimalValue, List.foldl_nil, Nat.mul_zero, Nat.zero_add, List.nil_append]
        rw [natDec_lt (by omega), ← hb]
        exact ⟨rfl, by omega⟩
      | cons a t =>
        obtain ⟨i1, i2⟩ := ih (fun d h => hd d (by simp at h ⊢; rcases h with h | h <;> simp [h]))
          (fun c' t' e => hh c' (t' ++ [c]) (by rw [e]; rfl)) (by simp)
        rw [hv]
        refine ⟨?_, by omega⟩
        rw [natDec_ge (by omega)]
        have e1 : (10 * decimalValue (a :: t) + (c.toNat - 48)) / 10 = decimalValue (a :: t) := by omega
        have e2 : (10 * decimalValue (a :: t) + (c.toNat - 48)) % 10 = c.toNat - 48 := by omega
        rw [e1, e2, i1, ← hb]
  rcases hc with rfl | ⟨c, ds, rfl, hc, hd⟩ | ⟨c, ds, rfl, hc, hd⟩
  · have : n = 0 := isNumber_fun h ((parseInt_iff _ _).1 (by decide))
    subst this; rfl
  · obtain ⟨i1, i2⟩ := inj (c :: ds) hd (fun a t e => by cases e; exact hc) (by simp)
    have : n = (decimalValue (c :: ds) : Int) := by
      refine isNumber_fun h ⟨.plain (by simp) hd, ?_⟩
      have := h.1
      generalize hx : (c :: ds) = x at this
      cases this with
      | plain => exact h.2
      | plus => cases hx; have := hd 43 (by simp); simp [isDigit] at this
      | minus => cases hx; have := hd 45 (by simp); simp [isDigit] at this
    subst this
    unfold intDec
    rw [if_neg (by omega)]
    simpa using i1
  · obtain ⟨i1, i2⟩ := inj (c :: ds) hd (fun a t e => by cases e; exact hc) (by simp)
    have : n = -(decimalValue (c :: ds) : Int) := by
      have := h.1
      generalize hx : (45 :: c :: ds) = x at this
      cases this with
      | plain _ h2 => subst hx; have := h2 45 (by simp); simp [isDigit] at this
      | plus => cases hx
      | minus => cases hx; rfl
    subst this
    unfold intDec
    rw [if_pos (by omega)]
    simpa using i1

theorem toText_eq_iff (p : Bytes) : (string2TextNumber p).toText = p ↔ ∀ n, IsNumber p n → CanonicalDecimal p := by
  by_cases hp : ∃ n, IsNumber p n
  · obtain ⟨n, hn⟩ := hp
    rw [string2TextNumber_number hn]
    simp only [TextNumber.toText, if_true]
    exact ⟨fun h _ _ => h ▸ intDec_canonical n, fun h => canonical_intDec hn (h n hn)⟩
  · rw [string2TextNumber_text hp]
    simp only [TextNumber.toText, Bool.false_eq_true, if_false, true_iff]
    exact fun n hn => absurd ⟨n, hn⟩ hp

theorem made_toText {a : TextNumber} (h : a.Made) : string2TextNumber a.toText = a := by
  rcases made_cases h with ⟨n, hn, rfl⟩ | ⟨p, hp, rfl⟩
  · simp only [TextNumber.toText, if_true]
    exact string2TextNumber_number (isNumber_intDec hn)
  · simp only [TextNumber.toText, Bool.false_eq_true, if_false]
    exact string2TextNumber_text hp

theorem intDec_noDot (n : Int) : (46 : UInt8) ∉ intDec n := by
  intro h
  rcases intDec_chars n 46 h with h | h
  · simp [isDigit] at h
  · simp at h

theorem string2Segments_canonical (k : Bytes) : string2Segments (segments2string (string2Segments k)) = string2Segments k := by
  unfold segments2string string2Segments
  rw [splitOn_join]
  · rw [List.map_map, List.map_map]
    apply List.map_congr_left
    intro p _
    exact made_toText ⟨p, rfl⟩
  · simp [splitOn_ne_nil]
  · intro q hq
    simp only [List.mem_map] at hq
    obtain ⟨a, ⟨p, hp, rfl⟩, rfl⟩ := hq
    by_cases h : ∃ n, IsNumber p n
    · obtain ⟨n, hn⟩ := h
      rw [string2TextNumber_number hn]
      exact intDec_noDot n
    · rw [string2TextNumber_text h]
      exact splitOn_pieces 46 k p hp

theorem tie_iff (k k' : Bytes) :
    (segsLess (string2Segments k) (string2Segments k') = false ∧ segsLess (string2Segments k') (string2Segments k) = false) ↔
    segments2string (string2Segments k) = segments2string (string2Segments k') := by
  constructor
  · rintro ⟨h1, h2⟩
    rcases segsLess_total (mades_string2Segments k) (mades_string2Segments k') with h | h | h
    · rw [h] at h1; cases h1
    · rw [h]
    · rw [h] at h2; cases h2
  · intro h
    have : string2Segments k = string2Segments k' := by
      rw [← string2Segments_canonical k, h, string2Segments_canonical]
    rw [this]
    exact ⟨segsLess_irrefl _, segsLess_irrefl _⟩

theorem map_toText_eq_iff (ps : List Bytes) : (ps.map string2TextNumber).map TextNumber.toText = ps ↔
    ∀ p ∈ ps, ∀ n, IsNumber p n → CanonicalDecimal p := by
  induction ps with
  | nil => simp
  | cons p ps ih =>
    simp only [List.map_cons, List.cons.injEq, List.mem_cons, forall_eq_or_imp]
    rw [ih, toText_eq_iff]

theorem segments_roundtrip_iff (k : Bytes) (ps : List Bytes) (hp : Pieces k ps) :
    segments2string (string2Segments k) = k ↔ ∀ p ∈ ps, ∀ n, IsNumber p n → CanonicalDecimal p := by
  rw [pieces_iff] at hp
  rw [← map_toText_eq_iff]
  unfold segments2string string2Segments
  rw [hp]
  constructor
  · intro h
    have hd : ∀ q ∈ (ps.map string2TextNumber).map TextNumber.toText, (46 : UInt8) ∉ q := by
      intro q hq
      simp only [List.mem_map] at hq
      obtain ⟨a, ⟨p, hp', rfl⟩, rfl⟩ := hq
      by_cases h : ∃ n, IsNumber p n
      · obtain ⟨n, hn⟩ := h
        rw [string2TextNumber_number hn]
        exact intDec_noDot n
      · rw [string2TextNumber_text h]
        exact splitOn_pieces 46 k p (hp ▸ hp')
    have := splitOn_join 46 _ (by subst hp; simp [splitOn_ne_nil]) hd
    rw [h, hp] at this
    exact this.symm
  · intro h
    rw [h, ← hp, join_splitOn]

end Jsonutils
