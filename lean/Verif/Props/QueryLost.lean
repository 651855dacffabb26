import Verif.Props.Query

/-!
# What a query string loses: C28
-/

namespace Jsonutils

/-- The document holds no leaf at all: it is a reference, or an array or dictionary of such. -/
inductive J.Blank : J → Prop where
  | ptr (id : Int) : J.Blank (.ptr id)
  | arr {xs : List J} (h : ∀ x ∈ xs, J.Blank x) : J.Blank (.arr xs)
  | dict {id : Int} {kvs : List (Bytes × J)} (h : ∀ e ∈ kvs, J.Blank e.2) : J.Blank (.dict id kvs)

/-- The pieces of a query string that say something. -/
def saying (s : Bytes) : List Bytes := (splitOn 38 s).filter fun p => p ≠ []

theorem saying_nil : saying [] = [] := rfl

theorem splitOn_app (p s : Bytes) : splitOn 38 (p ++ 38 :: s) = splitOn 38 p ++ splitOn 38 s := by
  induction p with
  | nil => simp [splitOn]
  | cons c p ih =>
    simp only [List.cons_append, splitOn, ih]
    split
    · rfl
    · cases hq : splitOn 38 p with
      | nil => exact absurd hq (splitOn_ne_nil 38 p)
      | cons a as => rfl

theorem saying_join : ∀ ps : List Bytes, saying (joinWith b!"&" ps) = ps.flatMap saying
  | [] => rfl
  | [p] => by simp [joinWith]
  | p :: q :: r => by
    have ih := saying_join (q :: r)
    show saying ((p ++ [38]) ++ joinWith b!"&" (q :: r)) = _
    rw [List.append_assoc]
    show saying (p ++ 38 :: joinWith b!"&" (q :: r)) = _
    have : saying (p ++ 38 :: joinWith b!"&" (q :: r)) = saying p ++ saying (joinWith b!"&" (q :: r)) := by
      simp only [saying, splitOn_app, List.filter_append]
    rw [this, ih]; rfl

theorem loop_saying : ∀ (ps : List Bytes) (m : Values) (bad : Bool), parseQueryLoop (ps.filter fun p => p ≠ []) m bad = parseQueryLoop ps m bad
  | [], _, _ => rfl
  | p :: ps, m, bad => by
    by_cases hp : p = []
    · subst hp
      simp only [List.filter_cons, ne_eq, not_true_eq_false, decide_false, Bool.false_eq_true, if_false]
      rw [loop_saying ps m bad]; simp [parseQueryLoop]
    · simp only [List.filter_cons, ne_eq, hp, not_false_eq_true, decide_true, if_true, parseQueryLoop, if_false]
      have hh := loop_saying ps
      simp only [ne_eq] at hh
      split
      · rw [hh]
      · split
        · rw [hh]
        · split
          · rw [hh]
          · rw [hh]

theorem parse_saying {s t : Bytes} (h : saying s = saying t) : parseQueryString s = parseQueryString t := by
  have : parseQuery s = parseQuery t := by
    simp only [parseQuery]
    rw [← loop_saying (splitOn 38 s), ← loop_saying (splitOn 38 t)]
    simp only [saying] at h
    rw [h]
  simp only [parseQueryString, this]

theorem blank_says {v : J} (h : v.Blank) : ∀ key : Bytes, saying (v.queryStr key) = [] := by
  induction h with
  | ptr id => intro key; simp [J.queryStr, saying_nil]
  | @arr xs _ ih =>
    intro key
    rw [J.queryStr, saying_join]
    have : ∀ (ys : List J) (i : Nat), (∀ x ∈ ys, ∀ key : Bytes, saying (x.queryStr key) = []) → (J.queryStrs ys key i).flatMap saying = [] := by
      intro ys
      induction ys with
      | nil => intros; rfl
      | cons y ys ih2 =>
        intro i hy
        rw [J.queryStrs, List.flatMap_cons, hy y (by simp), ih2 _ fun x hx => hy x (by simp [hx])]; rfl
    exact this xs 0 ih
  | @dict id kvs _ ih =>
    intro key
    rw [J.queryStr, saying_join]
    have : ∀ ys : List (Bytes × J), (∀ e ∈ ys, ∀ key : Bytes, saying (e.2.queryStr key) = []) → (J.queryStrf ys key).flatMap saying = [] := by
      intro ys
      induction ys with
      | nil => intros; rfl
      | cons y ys ih2 =>
        intro hy
        obtain ⟨k, y⟩ := y
        rw [J.queryStrf, List.flatMap_cons, hy (k, y) (by simp), ih2 fun x hx => hy x (by simp [hx])]; rfl
    exact this kvs ih

namespace Props

theorem queryStrf_app (key : Bytes) : ∀ a b : List (Bytes × J), J.queryStrf (a ++ b) key = J.queryStrf a key ++ J.queryStrf b key
  | [], _ => rfl
  | (k, x) :: a, b => by simp only [List.cons_append, J.queryStrf, queryStrf_app key a b]

/-- **C28.** Members without any leaf (an empty array, an empty dictionary, a reference, or nests of these) leave no trace in a query
string: `ParseQueryString` reads the same with and without them.  Whatever the other members are, and errors included. -/
theorem C28_blank_members_lost (id : Int) (pre post : List (Bytes × J)) (k : Bytes) (v : J) (hv : v.Blank) :
    parseQueryString (J.dict id (pre ++ (k, v) :: post)).queryString = parseQueryString (J.dict id (pre ++ post)).queryString := by
  refine parse_saying ?_
  show saying ((J.dict id _).queryStr []) = saying ((J.dict id _).queryStr [])
  simp only [J.queryStr, saying_join, queryStrf_app, J.queryStrf, List.flatMap_append, List.flatMap_cons, blank_says hv, List.nil_append]

example : J.Blank (.arr [.ptr 3, .dict 0 [(b!"x", .arr [])]]) :=
  .arr (by
    intro x hx
    simp only [List.mem_cons, List.not_mem_nil, or_false] at hx
    rcases hx with rfl | rfl
    · exact .ptr 3
    · exact .dict (by
        intro e he
        simp only [List.mem_cons, List.not_mem_nil, or_false] at he
        subst he
        exact .arr (by intro x hx; cases hx)))

example : parseQueryString (J.dict 0 [(b!"a", .str b!"1"), (b!"b", .arr [.ptr 3, .arr []]), (b!"c", .str b!"2")]).queryString =
    .ok (.dict 0 [(b!"a", .str b!"1"), (b!"c", .str b!"2")]) := rfl

end Props
end Jsonutils
