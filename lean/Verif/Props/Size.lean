import Verif.Proofs.SizeMore
import Verif.Props.Lenient

/-!
# C84: how large documents and texts can get
-/

namespace Jsonutils.Props
open Jsonutils Jsonutils.Lenient

/-- **C84.** `Parse` does not amplify: the document has no more values than the text has bytes, is nested no deeper than that,
and its values together with the bytes of its strings and keys are at most one more than the bytes of the text (the
one more is reached by a bare word). -/
theorem C84_parse (str : Bytes) (v : J) (h : parse str = .ok v) :
    v.nodes ≤ str.length ∧ v.depth ≤ str.length ∧ v.nodes + v.letters ≤ str.length + 1 := by
  obtain ⟨w, u, ids, r, rfl, _, hv, _⟩ := (C52_accepts str v).1 h
  have h1 := value_size hv
  have h2 := depth_le v
  unfold wt at h1
  simp only [List.length_append]
  omega

/-- Nothing limits the depth: `n` opening brackets give a document nested `n` deep (and `Parse` and `String` recurse that deep). -/
theorem C84_depth (n : Nat) :
    ∃ v, parse (List.replicate (n + 1) 91 ++ List.replicate (n + 1) 93) = .ok v ∧ v.depth = n + 1 := by
  refine ⟨nestJ n, (C52_accepts _ _).2 ⟨[], _, [], [], rfl, (by intro c hc; cases hc), ?_, List.nodup_nil⟩, nestJ_depth n⟩
  have := nestJ_value n []
  rwa [List.append_nil] at this

/-- `String` writes at most 6 bytes for a byte of a string or key and 331 for each value; without floats 37 for each value. -/
theorem C84_string (v : J) (hw : v.WF) (hr : v.Refable) :
    v.toBytes.length ≤ 6 * v.letters + 331 * v.nodes ∧ (v.NoFloat → v.toBytes.length ≤ 6 * v.letters + 37 * v.nodes) := by
  have h1 := toBytes_len 331 (by decide) v hw hr (shortOfWF v hw)
  refine ⟨by omega, fun hn => ?_⟩
  have := toBytes_len 37 (by decide) v hw hr (shortOfNoFloat 37 v hn)
  omega

/-- Hence reading a text and writing it again is linear: no text grows by more than a factor. -/
theorem C84_rewrite (str : Bytes) (v : J) (h : parse str = .ok v) : v.toBytes.length ≤ 331 * (str.length + 1) := by
  obtain ⟨off, hs⟩ := parse_ok_stream h
  have hp := parseStream_parsed hs
  have h1 := (C84_string v hp.wf hp.ref).1
  have h2 := C84_parse str v h
  omega

/-- A float takes at most 327 bytes, in either width. -/
theorem C84_float (x : GoFloat) (bit : Nat) (hx : x.Canonical) : (J.float x bit).toBytes.length ≤ 327 := by
  unfold J.toBytes
  exact formatFloat_len hx _

/-- An integer takes at most 20. -/
theorem C84_int (n : Int) (hn : InI64 n) : (J.int n).toBytes.length ≤ 20 := intDec_len hn

/-- `PrettyString` can take 12 bytes more for each value and level of nesting … -/
theorem C84_pretty (v : J) (hw : v.WF) (hr : v.Refable) :
    v.prettyString.length ≤ 6 * v.letters + v.nodes * (331 + 12 * v.depth) := by
  have h1 := pretty_len 331 (by decide) v 0 hw hr (shortOfWF v hw)
  have e : 331 + 6 * (0 + 2 * v.depth) = 331 + 12 * v.depth := by omega
  rw [e] at h1
  unfold J.prettyString
  omega

/-- … and does: the text `[[…]]` of `2 (n + 1)` bytes becomes one of `2 (n + 1)²`. -/
theorem C84_pretty_quadratic (n : Nat) :
    ∃ v, parse (List.replicate (n + 1) 91 ++ List.replicate (n + 1) 93) = .ok v ∧ v.prettyString.length = 2 * (n + 1) * (n + 1) := by
  refine ⟨nestJ n, (C52_accepts _ _).2 ⟨[], _, [], [], rfl, (by intro c hc; cases hc), ?_, List.nodup_nil⟩, ?_⟩
  · have := nestJ_value n []
    rwa [List.append_nil] at this
  · have := nestJ_pretty n 0
    unfold J.prettyString
    omega

/-- `Marshal` and `MarshalAll` write out what is reached through several pointers again each time, unless it is being
written: `n + 1` slices of at most two pointers each, without any cycle, become a document of `2 ^ (n + 1) - 1` values. -/
theorem C84_marshal_doubles (ord : SMap Bytes → List (Bytes × Bytes)) (pick : List Nat → Nat) (oe : Bool) (h : List GV) (n : Nat)
    (hcells : ∀ a, a < n → h[a]? = some (.seq [.ptr (a + 1), .ptr (a + 1)])) (hlast : h[n]? = some (.seq [])) :
    ∃ d, (∀ fuel, n + 1 ≤ fuel → marshal ord pick oe h fuel (.ptr 0) = some d) ∧ d.nodes = 2 ^ (n + 1) - 1 := by
  have hcell : ∀ i ≤ n, h[0 + i]? = (ladder 0 n)[i]? := by
    intro i hi
    rw [ladder_get 0 n i hi, Nat.zero_add]
    by_cases hlt : i < n
    · rw [if_pos hlt, hcells i hlt]
    · have : i = n := by omega
      subst this; rw [if_neg hlt, hlast]
  refine ⟨(ladderJ n).finish (MSess.live ⟨0, []⟩) pick, fun fuel hf => ?_, ?_⟩
  · obtain ⟨k, rfl⟩ := Nat.exists_eq_add_of_le hf
    obtain ⟨i, hr⟩ := ladder_run ord oe h n 0 hcell .init (by intro e he; cases he) k
    unfold marshal
    rw [hr]
    rfl
  · have := ladderJ_nodes n (MSess.live ⟨0, []⟩) pick
    omega

/-! ### Examples -/

/-- The bound of `C84_parse` is reached. -/
example : parse b!"[ab,c]" = .ok (.arr [.str b!"ab", .str b!"c"]) ∧ (J.arr [.str b!"ab", .str b!"c"]).nodes = 3 ∧
    (J.arr [.str b!"ab", .str b!"c"]).letters = 3 ∧ (b!"[ab,c]").length = 6 := ⟨rfl, rfl, rfl, rfl⟩
example : parse b!"abc" = .ok (.str b!"abc") ∧ (J.str b!"abc").nodes + (J.str b!"abc").letters = (b!"abc").length + 1 := ⟨rfl, rfl⟩
/-- A document with everything that `C84_string` speaks about. -/
example : J.WF (.dict 3 [(b!"a", .float (.fin false 1 0) 64), (b!"b", .arr [.ptr 3, .str [0]])]) ∧
    J.Refable (.dict 3 [(b!"a", .float (.fin false 1 0) 64), (b!"b", .arr [.ptr 3, .str [0]])]) := by
  refine ⟨⟨by unfold SMap.Sorted; decide, by show Canon f64 1 0; unfold Canon; decide, ⟨trivial, trivial, trivial⟩, trivial⟩, ?_⟩
  refine ⟨by unfold InI64 i64min i64max; omega, by decide, trivial, by decide, ⟨by unfold J.Refable InI64 i64min i64max; omega, trivial, trivial⟩, trivial⟩
/-- A memory for `C84_marshal_doubles`: two levels, seven values. -/
example : (∀ a, a < 2 → (ladder 0 2)[a]? = some (.seq [.ptr (a + 1), .ptr (a + 1)])) ∧ (ladder 0 2)[2]? = some (.seq []) := by
  refine ⟨fun a ha => ?_, rfl⟩
  match a, ha with
  | 0, _ => rfl
  | 1, _ => rfl

end Jsonutils.Props
