import Verif.Proofs.QueryExact
import Verif.Props.Query
import Verif.Props.Params

/-!
# Which dictionaries survive the round trip through a query string: C28, C68
-/

namespace Jsonutils.Props

/-- **C28, exactly.** A dictionary with non-empty top-level keys and no reference pointers comes back from
`ParseQueryString(d.QueryString())` with every scalar replaced by its text exactly if: all keys are dot-free and canonical if they are
numbers; there is no empty container below the top level; the elements of every array are in the order of the depth of their shallowest
scalar; and in no dictionary below the top level do the scalars under "0" come first (before them comes a scalar that is less deep, or
as deep under a negative number). -/
theorem C28_exact (id : Int) (kvs : SMap J) (h : (J.dict id kvs).WF) (hk : ∀ e ∈ kvs, e.1 ≠ []) (hz : J.QuerySizedf kvs) :
    parseQueryString (J.dict id kvs).queryString = .ok (J.dict id kvs).textual ↔
      (∀ e ∈ kvs, QueryKey e.1) ∧ J.QueryTidyf kvs ∧ J.QueryOrderf kvs := query_exact_all h hz hk id

/-- **C68, the shape of the result.** Whatever the query string: all keys of the result are dot-free and canonical if they are numbers,
and below the top level there is no empty container. -/
theorem C68_shape {str : Bytes} {v : J} (h : parseQueryString str = .ok v) :
    ∃ kvs, v = .dict 0 kvs ∧ (∀ e ∈ kvs, QueryKey e.1) ∧ J.QueryTidyf kvs := by
  obtain ⟨h1, _, h3, _⟩ := C68_result h
  cases v with
  | dict id kvs =>
    have : id = 0 := h3.1
    subst this
    refine ⟨kvs, rfl, ?_⟩
    rcases parse_shape h with he | he
    · injection he with _ he
      subst he
      exact ⟨by simp, trivial⟩
    · simp only [J.QueryTidy] at he
      exact he.2
  | _ => exact absurd h1 (fun hc => hc)

/-- **C28, parsed again.** A parsed query string, printed and parsed again, is the same document exactly if its scalars are in order. -/
theorem C28_reparse {str : Bytes} {kvs : SMap J} (h : parseQueryString str = .ok (.dict 0 kvs)) (hk : ∀ e ∈ kvs, e.1 ≠ [])
    (hz : J.QuerySizedf kvs) :
    parseQueryString (J.dict 0 kvs).queryString = .ok (.dict 0 kvs) ↔ J.QueryOrderf kvs := by
  obtain ⟨_, h2, h3, _⟩ := C68_result h
  obtain ⟨kvs', he, h4, h5⟩ := C68_shape h
  injection he with _ he
  subst he
  have := C28_exact 0 kvs h2 hk hz
  rw [textual_strings _ h3] at this
  rw [this]
  exact ⟨fun h => h.2.2, fun h => ⟨h4, h5, h⟩⟩

/-- Not every parsed query string survives: two values of `a.0` make an array that is deeper than what follows it. -/
theorem C28_reparse_needed :
    parseQueryString b!"a.0=1&a.0=2&a.1=3" = .ok (.dict 0 [(b!"a", .arr [.arr [.str b!"1", .str b!"2"], .str b!"3"])]) ∧
    parseQueryString (J.dict 0 [(b!"a", .arr [.arr [.str b!"1", .str b!"2"], .str b!"3"])]).queryString =
      .ok (.dict 0 [(b!"a", .dict 0 [(b!"0", .arr [.str b!"1", .str b!"2"]), (b!"1", .str b!"3")])]) := ⟨rfl, rfl⟩

/-- A member "0" that does not come first: `{"a":{"-1":"m","0":"z"},"b":{"0":{"x":"1"},"b":"y"}}`. -/
def zeroQuery : SMap J :=
  [(b!"a", .dict 0 [(b!"-1", .str b!"m"), (b!"0", .str b!"z")]),
   (b!"b", .dict 0 [(b!"0", .dict 0 [(b!"x", .str b!"1")]), (b!"b", .str b!"y")])]

/-- It meets the hypotheses and the right-hand side of `C28_exact`, and comes back. -/
example : (J.dict 0 zeroQuery).WF ∧ (∀ e ∈ zeroQuery, e.1 ≠ []) ∧ J.QuerySizedf zeroQuery ∧
    ((∀ e ∈ zeroQuery, QueryKey e.1) ∧ J.QueryTidyf zeroQuery ∧ J.QueryOrderf zeroQuery) := by
  have hw : (J.dict 0 zeroQuery).WF := by
    simp only [zeroQuery, J.WF, J.WFf, SMap.Sorted, and_true]
    decide
  have hz : J.QuerySizedf zeroQuery := by simp [zeroQuery, J.QuerySizedf, J.QuerySized]
  have hk : ∀ e ∈ zeroQuery, e.1 ≠ [] := by simp [zeroQuery]
  exact ⟨hw, hk, hz, (C28_exact 0 zeroQuery hw hk hz).1 rfl⟩

/-- An array out of order: the right-hand side fails, and the document does not come back. -/
example : ¬ J.QueryOrderf [(b!"a", .arr [.dict 0 [(b!"x", .str b!"1")], .str b!"s"])] := by
  simp [J.QueryOrderf, J.QueryOrder, J.QueryOrders, NoDeeper, J.leaves, J.leavesf]

end Jsonutils.Props
