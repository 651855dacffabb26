import Verif.Proofs.Params
import Verif.Props.Query

/-!
# C68: ParseQueryString on arbitrary query strings
-/

namespace Jsonutils.Props
open Rfc

/-- **C68, rejection.** The query string is rejected as malformed iff it is not a list of parameters: some piece between `&`s
contains a semicolon or a percent sign that is not followed by two hexadecimal digits. -/
theorem C68_malformed (str : Bytes) : parseQueryString str = .error .badQuery ↔ ¬ ∃ kvs, IsQuery str kvs := by
  rw [← parseQuery_none]
  constructor
  · intro h
    unfold parseQueryString at h
    split at h
    · assumption
    · exact absurd h (addAllSegs_notBad _ _ _)
  · intro h
    simp only [parseQueryString, h]

/-- **C68, same parameters.** The result depends only on the values of every key, in their order: not on the order of the keys,
nor on the way the parameters are written. -/
theorem C68_same_parameters {str str' : Bytes} {kvs kvs' : List (Bytes × Bytes)} (h : IsQuery str kvs) (h' : IsQuery str' kvs')
    (he : ∀ k, valuesOf kvs k = valuesOf kvs' k) : parseQueryString str = parseQueryString str' := same_params h h' he

/-- **C68, flat keys.** If the keys have no dots (and number keys are canonical), the result is the dictionary that holds for every
key its text, or the array of its texts in their order if there are several. -/
theorem C68_flat {str : Bytes} {kvs : List (Bytes × Bytes)} (h : IsQuery str kvs) (hk : ∀ e ∈ kvs, QueryKey e.1) :
    ∃ d, parseQueryString str = .ok (.dict 0 d) ∧ SMap.Sorted d ∧ ∀ k,
      (valuesOf kvs k = [] → smGet d k = none) ∧ (∀ v, valuesOf kvs k = [v] → smGet d k = some (.str v)) ∧
      (2 ≤ (valuesOf kvs k).length → smGet d k = some (.arr ((valuesOf kvs k).map .str))) := by
  obtain ⟨d, h1, h2, h3⟩ := flat_query h hk
  refine ⟨d, h1, h2, fun k => ⟨fun hv => by rw [h3, hv]; rfl, fun v hv => by rw [h3, hv]; rfl, fun hv => ?_⟩⟩
  rw [h3]
  match hl : valuesOf kvs k, hv with
  | a :: b :: r, _ => rfl

/-- **C68, the result.** Whatever the query string: a well-formed dictionary all of whose scalars are texts, each of them a value of
some parameter. -/
theorem C68_result {str : Bytes} {v : J} (h : parseQueryString str = .ok v) :
    v.IsDict ∧ v.WF ∧ v.StringsOnly ∧ ∃ kvs, IsQuery str kvs ∧ ∀ s ∈ v.texts, ∃ k, (k, s) ∈ kvs := by
  cases hp : parseQuery str with
  | none => simp only [parseQueryString, hp] at h; cases h
  | some m =>
    have hq : ∃ kvs, IsQuery str kvs := Classical.byContradiction fun hn => by rw [(parseQuery_none str).2 hn] at hp; cases hp
    obtain ⟨kvs, hq⟩ := hq
    rw [parseQuery_params hq] at hp
    cases hp
    simp only [parseQueryString, parseQuery_params hq] at h
    have := addAllSegs_tidy (S := fun s => ∃ k, (k, s) ∈ kvs) (m := appendAll [] kvs) (fun k s hs => by
      rw [valuesGet_all] at hs
      simp only [valuesGet, List.nil_append] at hs
      exact ⟨k, mem_valuesOf.1 hs⟩) _ (.dict 0 []) v (textsIn_dict.2 ⟨rfl, sorted_nil, by simp⟩) trivial h
    exact ⟨this.2, this.1.1, this.1.2.1, kvs, hq, this.1.2.2⟩

theorem unescapes_escape (s : Bytes) : Unescapes (queryEscape s) s := (queryUnescape_iff _ _).1 (queryUnescape_queryEscape s)

/-- `b=x&a=1&&a=2` and `a=%31&b=x&a=2`. -/
example : IsQuery b!"b=x&a=1&&a=2" [(b!"b", b!"x"), (b!"a", b!"1"), (b!"a", b!"2")] ∧ IsQuery b!"a=%31&b=x&a=2" [(b!"a", b!"1"), (b!"b", b!"x"), (b!"a", b!"2")] ∧
    (∀ k, valuesOf [(b!"b", b!"x"), (b!"a", b!"1"), (b!"a", b!"2")] k = valuesOf [(b!"a", b!"1"), (b!"b", b!"x"), (b!"a", b!"2")] k) ∧
    parseQueryString b!"b=x&a=1&&a=2" = .ok (.dict 0 [(b!"a", .arr [.str b!"1", .str b!"2"]), (b!"b", .str b!"x")]) := by
  have par : ∀ (a b k v : Bytes), (59 : UInt8) ∉ a ++ 61 :: b → (61 : UInt8) ∉ a → queryUnescape a = some k → queryUnescape b = some v → Param (a ++ 61 :: b) k v :=
    fun a b k v h1 h2 h3 h4 => ⟨by simp, h1, Or.inl ⟨a, b, rfl, h2, (queryUnescape_iff _ _).1 h3, (queryUnescape_iff _ _).1 h4⟩⟩
  refine ⟨⟨[b!"b=x", b!"a=1", [], b!"a=2"], by simp, by decide, rfl, ?_⟩, ⟨[b!"a=%31", b!"b=x", b!"a=2"], by simp, by decide, rfl, ?_⟩, ?_, rfl⟩
  · exact .cons (par b!"b" b!"x" _ _ (by decide) (by decide) rfl rfl) (.cons (par b!"a" b!"1" _ _ (by decide) (by decide) rfl rfl)
      (.empty (.cons (par b!"a" b!"2" _ _ (by decide) (by decide) rfl rfl) .nil)))
  · exact .cons (par b!"a" b!"%31" _ _ (by decide) (by decide) rfl rfl) (.cons (par b!"b" b!"x" _ _ (by decide) (by decide) rfl rfl)
      (.cons (par b!"a" b!"2" _ _ (by decide) (by decide) rfl rfl) .nil))
  · intro k
    by_cases h1 : b!"b" = k
    · subst h1; rfl
    · by_cases h2 : b!"a" = k
      · subst h2; rfl
      · simp only [valuesOf, List.filter_cons, h1, h2, decide_false, Bool.false_eq_true, if_false, List.filter_nil]

/-- `a=1;b=2` and `a=%zz` are rejected. -/
example : parseQueryString b!"a=1;b=2" = .error .badQuery ∧ parseQueryString b!"a=%zz" = .error .badQuery := ⟨rfl, rfl⟩

end Jsonutils.Props
