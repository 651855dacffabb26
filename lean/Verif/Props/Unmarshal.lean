import Verif.Proofs.UnmarshalTidy
import Verif.Props.Marshal

/-!
# Unmarshal: C38, C46, ...

`d.unmarshal P keys t x`: the call `d.Unmarshal(&x, keys...)` for a variable `x` of type `t`; the result is the variable
afterwards and the error, `none` = panic.  `uok v`: the variable holds `v`, no error.
-/

namespace Jsonutils.Props

variable {ord : SMap Bytes → List (Bytes × Bytes)} {pick : List Nat → Nat} {P : UEnv}

/-! ## C38 -/

/-- **C38.** `Marshal` (`oe`) or `MarshalAll` any value of a round-trip type, in any memory; put the document under any key
of any dictionary `d`: `d.Unmarshal(&x, key)` into a fresh variable restores the value. -/
theorem C38_restores (hord : ∀ dep, (ord dep).Perm dep) {oe : Bool} (hP : P.RoundTripsD false) {t : Ty} (ht : t.RoundTrips false)
    {h : List GV} {g : GV} {v : UV} (hv : IsValue P.defs h g v t) (hr : v.Restorable oe false) {n : Nat} {j : J}
    (hm : marshal ord pick oe h n g = some j) {k : Bytes} {kvs : SMap J} {id : Int} (hk : smGet kvs k = some j) :
    (J.dict id kvs).unmarshal P [k] t (P.zero t) = uok (v.restored P oe t) := by
  rw [unmarshal_key j k kvs id hk]
  exact (restores hord hP ht hv hr hm).1

/-- **C38, at the root.** The same for `Marshal(v).Unmarshal(&x)`, for texts, slices, arrays, maps, structs and pointers to
them (not for numbers and booleans: C46). -/
theorem C38_root (hord : ∀ dep, (ord dep).Perm dep) {oe : Bool} (hP : P.RoundTripsD false) {t : Ty} (ht : t.RoundTrips false) (hroot : t.Rooted)
    {h : List GV} {g : GV} {v : UV} (hv : IsValue P.defs h g v t) (hr : v.Restorable oe false) {n : Nat} {j : J}
    (hm : marshal ord pick oe h n g = some j) : j.unmarshal P [] t (P.zero t) = uok (v.restored P oe t) := by
  obtain ⟨h1, h2⟩ := restores hord hP ht hv hr hm
  rcases h2 with h2 | ⟨h2, h3⟩
  · rw [unmarshal_rooted (rooted_docFor hroot (by simpa [J.seen] using h2))]
    simpa [J.seen] using h1
  · subst h2; rw [h3]; rfl

/-- **C38, through the text.** The document printed, parsed, and unmarshalled. -/
theorem C38_text (hord : ∀ dep, (ord dep).Perm dep) {oe : Bool} (hP : P.RoundTripsD true) {t : Ty} (ht : t.RoundTrips true) (hroot : t.Rooted)
    {h : List GV} {g : GV} {v : UV} (hv : IsValue P.defs h g v t) (hr : v.Restorable oe true) (hg : g.NoIds) (hh : ∀ x ∈ h, x.NoIds)
    (hok : ValuesOk h g) {n : Nat} {j : J} (hm : marshal ord pick oe h n g = some j) :
    ∃ d, parse j.toBytes = .ok d ∧ d.unmarshal P [] t (P.zero t) = uok (v.restored P oe t) := by
  obtain ⟨h1, h2⟩ := restores hord hP ht hv hr hm
  obtain ⟨b1, b2⟩ := marshal_bare ⟨_, hv.2⟩ hg hh hm
  obtain ⟨b3, b4⟩ := marshal_wf hord hok hm
  refine ⟨j.reread, parse_toBytes j b3 (b4 fun id hi => ?_) (by rw [b1]; simp), ?_⟩
  · rw [b1, b2] at hi; simp at hi
  · rcases h2 with h2 | ⟨h2, h3⟩
    · have h2 : j.reread.DocFor t := by simpa [J.seen] using h2
      rw [unmarshal_rooted (rooted_docFor hroot h2)]
      simpa [J.seen] using h1
    · subst h2; rw [h3]; rfl

/-- **C38, when nothing is lost.** For tidy values what comes back is the value itself. -/
theorem C38_identity {oe : Bool} {v : UV} {t : Ty} (hv : v.HasTy P.defs t) (ht : v.Tidy P oe t) : v.restored P oe t = v := by
  unfold UV.restored
  split
  · rename_i h; exact (tidy_null hv ht h).symm
  · exact norm_tidy v t hv ht

/-! A struct type `type T struct { Name string; Count *int32; Tags []string "omitempty"; Price map[string]float64; Next *T }`
and a value of it. -/

def exT : UEnv where
  defs := [[({ name := b!"name" }, .string), ({ name := b!"count" }, .ptr (.int 32)), ({ name := b!"tags", omitEmpty := true }, .slice .string),
    ({ name := b!"price" }, .map .float64), ({ name := b!"next" }, .ptr (.struct 0))]]
  idx := fun _ k => if k = b!"name" then [0] else if k = b!"count" then [1] else if k = b!"tags" then [2] else if k = b!"price" then [3]
    else if k = b!"next" then [4] else []
  toBool := fun _ => false
  us := fun _ => false
  eu := fun _ => false
  trunc := fun _ => 0

theorem exT_roundTrips (text : Bool) : exT.RoundTrips text := by
  refine ⟨?_, ?_⟩
  · intro n fs h i t hm
    cases n with
    | succ n => simp [exT] at h
    | zero =>
      simp only [exT, List.getElem?_cons_zero, Option.some.injEq] at h
      subst h
      simp only [List.mem_cons, Prod.mk.injEq, List.not_mem_nil, or_false] at hm
      rcases hm with ⟨_, rfl⟩ | ⟨_, rfl⟩ | ⟨_, rfl⟩ | ⟨_, rfl⟩ | ⟨_, rfl⟩ <;> trivial
  · intro n fs h
    cases n with
    | succ n => simp [exT] at h
    | zero =>
      simp only [exT, List.getElem?_cons_zero, Option.some.injEq] at h
      subst h
      refine ⟨by unfold DistinctNames; decide, ?_⟩
      intro k i t hk _
      match k with
      | 0 => simp at hk; obtain ⟨rfl, rfl⟩ := hk; exact ⟨trivial, rfl, rfl, by decide⟩
      | 1 => simp at hk; obtain ⟨rfl, rfl⟩ := hk; exact ⟨⟨trivial, trivial⟩, rfl, rfl, by decide⟩
      | 2 => simp at hk; obtain ⟨rfl, rfl⟩ := hk; exact ⟨trivial, rfl, rfl, by decide⟩
      | 3 => simp at hk; obtain ⟨rfl, rfl⟩ := hk; exact ⟨trivial, rfl, rfl, by decide⟩
      | 4 => simp at hk; obtain ⟨rfl, rfl⟩ := hk; exact ⟨⟨trivial, trivial⟩, rfl, rfl, by decide⟩
      | k + 5 => simp at hk

/-- `T{"a", &7, ["x", "y"], {"p": 1.0}, &T{"b", nil, nil, nil, nil}}` -/
def exV : UV := .struct [.str b!"a", .ptr (.int 7), .seq [.str b!"x", .str b!"y"] [], .map [(b!"p", .float (.fin false (2 ^ 52) 1022))],
  .ptr (.struct [.str b!"b", .nil, .nil, .nil, .nil])]

def exH : List GV := [.leaf (.int 7), .struct [({ name := b!"name" }, .leaf (.str b!"b")), ({ name := b!"count" }, .leaf .nil),
  ({ name := b!"tags", omitEmpty := true }, .leaf .nil), ({ name := b!"price" }, .leaf .nil), ({ name := b!"next" }, .leaf .nil)]]

def exG : GV := .struct [({ name := b!"name" }, .leaf (.str b!"a")), ({ name := b!"count" }, .ptr 0),
  ({ name := b!"tags", omitEmpty := true }, .seq [.leaf (.str b!"x"), .leaf (.str b!"y")]),
  ({ name := b!"price" }, .map [(b!"p", .leaf (.float64 (.fin false (2 ^ 52) 1022)))]), ({ name := b!"next" }, .ptr 1)]

theorem exV_value : IsValue exT.defs exH exG exV (.struct 0) := by
  refine ⟨?_, ?_⟩
  · have hn : (UV.struct [.str b!"b", .nil, .nil, .nil, .nil]).HasTy exT.defs (.struct 0) :=
      ⟨0, _, rfl, rfl, _, _, _, rfl, rfl, _, _, _, rfl, trivial, _, _, _, rfl, trivial, _, _, _, rfl, trivial, _, _, _, rfl, trivial, rfl⟩
    have hf : (UV.map [(b!"p", .float (.fin false (2 ^ 52) 1022))]).HasTy exT.defs (.map .float64) :=
      ⟨by simp [SMap.Sorted], _, .inl rfl, .inl ⟨rfl, by decide +kernel⟩, trivial⟩
    exact ⟨0, _, rfl, rfl, _, _, _, rfl, rfl, _, _, _, rfl, ⟨_, rfl, by decide, by decide, by decide, by decide⟩, _, _, _, rfl,
      ⟨_, rfl, ⟨rfl, rfl, trivial⟩, trivial⟩, _, _, _, rfl, hf, _, _, _, rfl, ⟨_, rfl, hn⟩, rfl⟩
  · simp only [exV, exT, UV.toTV, UV.toTVs, UV.toTVm, UV.toTVf, Ty.fields, Ty.elem, List.getD_cons_zero]
    exact .struct (.cons (.leaf _) (.cons (.ptr rfl (.leaf _)) (.cons (.seq (.cons (.leaf _) (.cons (.leaf _) .nil)))
      (.cons (.map (.cons (.leaf _) .nil)) (.cons (.ptr rfl (.struct (.cons (.leaf _) (.cons (.leaf _) (.cons (.leaf _)
        (.cons (.leaf _) (.cons (.leaf _) .nil))))))) .nil)))))

example (text : Bool) : (Ty.struct 0).RoundTrips text ∧ (Ty.struct 0).Rooted := ⟨trivial, trivial⟩

example (oe text : Bool) : exV.Restorable oe text := by
  simp [exV, UV.Restorable, UV.Restorables, UV.Restorablem, NotNegZero, UV.nilLike]

theorem exT_inherit (vs : List UV) : exT.inherit (.struct 0) vs = vs :=
  inherit_plain (P := exT) (n := 0) (fun q i t h hi => (((exT_roundTrips false).quoted.2 0 _ rfl).2 q i t h hi).2.2.1) vs

theorem exV_tidy : exV.Tidy exT true (.struct 0) := by
  have hf : (Ty.struct 0).fields exT.defs = [({ name := b!"name" }, .string), ({ name := b!"count" }, .ptr (.int 32)),
    ({ name := b!"tags", omitEmpty := true }, .slice .string), ({ name := b!"price" }, .map .float64), ({ name := b!"next" }, .ptr (.struct 0))] := rfl
  simp only [exV, UV.Tidy, exT_inherit, UV.Tidyf, hf, Ty.elem, and_true]
  simp [exT, UV.Tidy, UV.Tidy, UV.Tidys, UV.Tidym, UV.Tidyf, Ty.fields, Ty.elem, UV.nullLike, UV.nilLike, UV.empty, UV.emptyf, UEnv.zero, Ty.zeroIn,
    optZero, optEmpty, wrapI]

example : (marshal id List.head! true exH 3 exG).map (·.unmarshal exT [] (.struct 0) (exT.zero (.struct 0))) = some (uok exV) := by
  cases h : marshal id List.head! true exH 3 exG with
  | none => exact absurd h (by decide)
  | some j =>
    simp only [Option.map_some]
    rw [C38_root (fun _ => .refl _) ((exT_roundTrips false).quoted.toD) (t := .struct 0) trivial trivial exV_value
      (by simp [exV, UV.Restorable, UV.Restorables, UV.Restorablem, UV.nilLike]) h, C38_identity exV_value.1 exV_tidy]

example : exG.NoIds ∧ (∀ x ∈ exH, x.NoIds) ∧ ValuesOk exH exG := by
  refine ⟨?_, ?_, ?_, ?_⟩
  · simp [exG, GV.NoIds, GV.NoIdsf, GV.NoIdss, GV.NoIdsm, Leaf.NoIds]
  · intro x hx
    simp only [exH, List.mem_cons, List.not_mem_nil, or_false] at hx
    rcases hx with rfl | rfl <;> simp [GV.NoIds, GV.NoIdsf, Leaf.NoIds]
  · have : (GoFloat.fin false (2 ^ 52) 1022).Canonical := by decide +kernel
    simp only [exG, GV.Ok, GV.Okf, GV.Oks, GV.Okm, Leaf.Ok, this]
    decide
  · intro x hx
    simp only [exH, List.mem_cons, List.not_mem_nil, or_false] at hx
    rcases hx with rfl | rfl
    · simp only [GV.Ok, Leaf.Ok]; decide
    · simp only [GV.Ok, GV.Okf, Leaf.Ok]; decide

/-! The option `,string`: `type Q struct { On bool ",string"; N *int64 ",string"; U uint32 ",string"; S string ",string" }`. -/

def exQ : UEnv where
  defs := [[({ name := b!"on", forceString := true }, .bool), ({ name := b!"n", forceString := true }, .ptr (.int 64)),
    ({ name := b!"u", forceString := true }, .uint 32), ({ name := b!"s", forceString := true }, .string)]]
  idx := fun _ k => if k = b!"on" then [0] else if k = b!"n" then [1] else if k = b!"u" then [2] else if k = b!"s" then [3] else []
  toBool := fun s => s = b!"true"
  us := fun _ => true
  eu := fun _ => false
  trunc := fun _ => 0

theorem exQ_roundTrips (text : Bool) : exQ.RoundTripsQ text := by
  refine ⟨?_, ?_⟩
  · intro n fs h i t hm
    cases n with
    | succ n => simp [exQ] at h
    | zero =>
      simp only [exQ, List.getElem?_cons_zero, Option.some.injEq] at h
      subst h
      simp only [List.mem_cons, Prod.mk.injEq, List.not_mem_nil, or_false] at hm
      rcases hm with ⟨_, rfl⟩ | ⟨_, rfl⟩ | ⟨_, rfl⟩ | ⟨_, rfl⟩ <;> trivial
  · intro n fs h
    cases n with
    | succ n => simp [exQ] at h
    | zero =>
      simp only [exQ, List.getElem?_cons_zero, Option.some.injEq] at h
      subst h
      refine ⟨by unfold DistinctNames; decide, ?_⟩
      intro k i t hk _
      match k with
      | 0 => simp at hk; obtain ⟨rfl, rfl⟩ := hk; exact ⟨trivial, (fun _ => ⟨by decide, by decide⟩), rfl, by decide⟩
      | 1 => simp at hk; obtain ⟨rfl, rfl⟩ := hk; exact ⟨⟨trivial, trivial⟩, (fun _ => trivial), rfl, by decide⟩
      | 2 => simp at hk; obtain ⟨rfl, rfl⟩ := hk; exact ⟨trivial, (fun _ => (by decide : 32 < 64)), rfl, by decide⟩
      | 3 => simp at hk; obtain ⟨rfl, rfl⟩ := hk; exact ⟨trivial, (fun _ => trivial), rfl, by decide⟩
      | k + 4 => simp at hk

def exQV : UV := .struct [.bool true, .ptr (.int (-7)), .int 4000000000, .str b!"x"]

def exQG : GV := .struct [({ name := b!"on", forceString := true }, .leaf (.bool true)), ({ name := b!"n", forceString := true }, .ptr 0),
  ({ name := b!"u", forceString := true }, .leaf (.int 4000000000)), ({ name := b!"s", forceString := true }, .leaf (.str b!"x"))]

theorem exQV_value : IsValue exQ.defs [.leaf (.int (-7))] exQG exQV (.struct 0) := by
  refine ⟨?_, ?_⟩
  · exact ⟨0, _, rfl, rfl, _, _, _, rfl, rfl, _, _, _, rfl, ⟨_, rfl, by decide, by decide, by decide, by decide⟩, _, _, _, rfl,
      ⟨by decide, by decide, by decide, by decide⟩, _, _, _, rfl, rfl, rfl⟩
  · simp only [exQV, exQ, UV.toTV, UV.toTVf, Ty.fields, Ty.elem, List.getD_cons_zero]
    exact .struct (.cons (.leaf _) (.cons (.ptr rfl (.leaf _)) (.cons (.leaf _) (.cons (.leaf _) .nil))))

example : marshal id pick true [.leaf (.int (-7))] 3 exQG =
    some (.dict 0 [(b!"n", .str b!"-7"), (b!"on", .str b!"true"), (b!"s", .str b!"x"), (b!"u", .str b!"4000000000")]) := by rfl

example : exQV.Restorable true true ∧ exQV.Tidy exQ true (.struct 0) := by
  constructor
  · simp [exQV, UV.Restorable, UV.Restorables]
  · simp only [exQV, UV.Tidy]
    rw [inherit_plain (P := exQ) (n := 0) fun q i t h hi => (((exQ_roundTrips true)).2 0 _ rfl).2 q i t h hi |>.2.2.1]
    simp [exQ, UV.Tidy, UV.Tidyf, Ty.fields, Ty.elem, UV.nullLike, UV.empty, wrapI, Asks]

/-! Fields under their old names: `type D struct { Old string "deprecated-by:mid"; Mid string "deprecated-by:new"; New string; N int64 }`. -/

def exD : UEnv where
  defs := [[({ name := b!"old", deprecatedBy := some b!"mid" }, .string), ({ name := b!"mid", deprecatedBy := some b!"new" }, .string),
    ({ name := b!"new" }, .string), ({ name := b!"n" }, .int 64)]]
  idx := fun _ k => if k = b!"old" then [0] else if k = b!"mid" then [1] else if k = b!"new" then [2] else if k = b!"n" then [3] else []
  toBool := fun _ => false
  us := fun _ => false
  eu := fun _ => false
  trunc := fun _ => 0

theorem exD_roundTrips (text : Bool) : exD.RoundTripsD text := by
  refine ⟨?_, ?_⟩
  · intro n fs h i t hm
    cases n with
    | succ n => simp [exD] at h
    | zero =>
      simp only [exD, List.getElem?_cons_zero, Option.some.injEq] at h
      subst h
      simp only [List.mem_cons, Prod.mk.injEq, List.not_mem_nil, or_false] at hm
      rcases hm with ⟨_, rfl⟩ | ⟨_, rfl⟩ | ⟨_, rfl⟩ | ⟨_, rfl⟩ <;> trivial
  · intro n fs h
    cases n with
    | succ n => simp [exD] at h
    | zero =>
      simp only [exD, List.getElem?_cons_zero, Option.some.injEq] at h
      subst h
      refine ⟨by unfold DistinctNames; decide, ?_⟩
      intro k i t hk _
      match k with
      | 0 =>
        simp at hk; obtain ⟨rfl, rfl⟩ := hk
        exact ⟨trivial, (fun h => by cases h), by decide, (fun key h => by cases h; exact ⟨1, _, rfl, rfl, rfl⟩), _, _, rfl, rfl⟩
      | 1 =>
        simp at hk; obtain ⟨rfl, rfl⟩ := hk
        exact ⟨trivial, (fun h => by cases h), by decide, (fun key h => by cases h; exact ⟨2, _, rfl, rfl, rfl⟩), _, _, rfl, rfl⟩
      | 2 =>
        simp at hk; obtain ⟨rfl, rfl⟩ := hk
        exact ⟨trivial, (fun h => by cases h), by decide, (fun key h => by cases h), _, _, rfl, rfl⟩
      | 3 =>
        simp at hk; obtain ⟨rfl, rfl⟩ := hk
        exact ⟨trivial, (fun h => by cases h), by decide, (fun key h => by cases h), _, _, rfl, rfl⟩
      | k + 4 => simp at hk

def exDV (a b : Bytes) : UV := .struct [.str a, .str b, .str b!"x", .int 3]

def exDG (a b : Bytes) : GV := .struct [({ name := b!"old", deprecatedBy := some b!"mid" }, .leaf (.str a)),
  ({ name := b!"mid", deprecatedBy := some b!"new" }, .leaf (.str b)), ({ name := b!"new" }, .leaf (.str b!"x")), ({ name := b!"n" }, .leaf (.int 3))]

theorem exDV_value (a b : Bytes) : IsValue exD.defs [] (exDG a b) (exDV a b) (.struct 0) := by
  refine ⟨?_, ?_⟩
  · exact ⟨0, _, rfl, rfl, _, _, _, rfl, rfl, _, _, _, rfl, rfl, _, _, _, rfl, rfl, _, _, _, rfl,
      ⟨by decide, by decide, by decide, by decide⟩, rfl⟩
  · simp only [exDV, exD, UV.toTV, UV.toTVf, Ty.fields, List.getD_cons_zero]
    exact .struct (.cons (.leaf _) (.cons (.leaf _) (.cons (.leaf _) (.cons (.leaf _) .nil))))

/-- The value of the last field of the chain is written under all three names, and comes back in all three fields. -/
example : marshal id pick true [] 2 (exDG b!"a" b!"b") =
      some (.dict 0 [(b!"mid", .str b!"x"), (b!"n", .int 3), (b!"new", .str b!"x"), (b!"old", .str b!"x")]) ∧
    (exDV b!"a" b!"b").restored exD true (.struct 0) = exDV b!"x" b!"x" := by
  refine ⟨rfl, rfl⟩

example : (exDV b!"a" b!"b").Restorable true true ∧ (exDV b!"x" b!"x").Tidy exD true (.struct 0) ∧
    (∀ j, marshal id pick true [] 2 (exDG b!"a" b!"b") = some j → j.unmarshal exD [] (.struct 0) (exD.zero (.struct 0)) = uok (exDV b!"x" b!"x")) := by
  refine ⟨by simp [exDV, UV.Restorable, UV.Restorables], ?_, ?_⟩
  · refine ⟨?_, rfl⟩
    simp [exD, UV.Tidy, UV.Tidyf, Ty.fields, UV.nullLike, UV.empty, wrapI, optEmpty, optZero]
  · intro j hj
    exact C38_root (fun _ => .refl _) (exD_roundTrips false) (t := .struct 0) trivial trivial (exDV_value _ _)
      (by simp [exDV, UV.Restorable, UV.Restorables]) hj

/-- Two fields deprecated by each other: nothing of them is written, and both come back as zero. -/
theorem C38_loop (x y : Bytes) :
    marshal id pick true [] 2 (.struct [({ name := b!"a", deprecatedBy := some b!"b" }, .leaf (.str x)), ({ name := b!"b", deprecatedBy := some b!"a" }, .leaf (.str y))]) =
      some (.dict 0 []) := rfl

/-! ### What the hypotheses of C38 exclude, and why -/

/-- A field deprecated by one of another type: what `Marshal` writes under the old name does not fit. -/
theorem C38_old_type :
    let P : UEnv := { exD with
      defs := [[({ name := b!"old", deprecatedBy := some b!"new" }, .map .string), ({ name := b!"new" }, .string)]],
      idx := fun _ k => if k = b!"old" then [0] else if k = b!"new" then [1] else [] }
    marshal id (fun _ => 0) true [] 1 (.struct [({ name := b!"old", deprecatedBy := some b!"new" }, .leaf .nil), ({ name := b!"new" }, .leaf (.str b!"x"))]) =
      some (.dict 0 [(b!"new", .str b!"x"), (b!"old", .str b!"x")]) ∧
    ∃ e, (J.dict 0 [(b!"new", .str b!"x"), (b!"old", .str b!"x")]).unmarshal P [] (.struct 0) (P.zero (.struct 0)) = uerr (.struct [.nil, .str b!"x"]) e := by
  refine ⟨rfl, _, rfl⟩

/-- `[2]*int{nil, &7}`: `Marshal` writes one element, and `Unmarshal` refuses it (`MarshalAll` would have written null). -/
theorem C38_array_nil (n : Nat) :
    marshal ord pick true [.leaf (.int 7)] (n + 1) (.seq [.leaf .nil, .ptr 0]) = some (.arr [.int 7]) ∧
    ∀ x, (J.arr [.int 7]).unmarshal P [] (.array 2 (.ptr (.int 64))) (.arr x) = uerr (.arr x) .arrayLen :=
  ⟨C39_nil_dropped n, fun _ => rfl⟩

/-- `**T` for a struct `T`: what `Marshal` writes does not go back. -/
theorem C38_double_pointer (hw : P.defs.Wf) {fs : List (FInfo × Ty)} (h0 : P.defs[0]? = some fs) (id : Int) (kvs : SMap J) :
    (J.dict id kvs).unmarshal P [] (.ptr (.ptr (.struct 0))) (P.zero (.ptr (.ptr (.struct 0)))) =
      uerr (.ptr (.ptr (P.zero (.struct 0)))) .mismatch := by
  have : P.zero (.struct 0) = .struct (fs.map fun f => P.zero f.2) := zero_struct hw h0
  have hz : ∀ t, P.zero (.ptr t) = .nil := fun _ => rfl
  simp only [J.unmarshal, J.unm, hz, UEnv.alloc, this, Ty.isStructOrMap, Bool.false_eq_true, if_false]

/-- A uint64 above the largest int64 with option `,string` is written with a minus sign, which is not read back. -/
theorem C38_big_uint_string :
    (Leaf.int (wrapI 64 (2 ^ 64 - 1))).marshal (some { name := b!"x", forceString := true }) true = some (.str b!"-1") ∧
    (J.str b!"-1").unmarshal P [] (.uint 64) (.int 0) = uerr (.int 0) .num := by
  refine ⟨rfl, ?_⟩
  simp only [J.unmarshal, J.unm, UEnv.alloc, unmStr]
  rw [show b!"-1" = intDec (-1) from rfl, intDec_normal]
  rfl

/-- A float with option `,string` is written with six decimals: what is behind them is lost. -/
theorem C38_float_string : (Leaf.float64 (.fin false 1 0)).marshal (some { name := b!"x", forceString := true }) true = some (.str b!"0.000000") := by
  have h : sprintfF (.fin false 1 0) = b!"0.000000" := by decide +kernel
  show some (J.str (sprintfF (.fin false 1 0))) = _
  rw [h]

/-- A slice with option `,string` is written as a text, which `Unmarshal` takes for the text of its only element. -/
theorem C38_slice_string :
    marshal (fun x => x) pick true [] 1 (.struct [({ name := b!"x", forceString := true }, .seq [.leaf (.str b!"a")])]) =
      some (.dict 0 [(b!"x", .str b!"[\"a\"]")]) ∧
    (J.str b!"[\"a\"]").unmarshal P [] (.slice .string) .nil = uok (.seq [.str b!"[\"a\"]"] []) := by
  refine ⟨?_, rfl⟩
  rfl

/-- An `interface{}` variable does not take a dictionary. -/
theorem C38_interface (id : Int) (kvs : SMap J) (x : UV) :
    (J.dict id kvs).unmarshal P [] .any x = uerr x .ifaceUnsupp := rfl

/-- A JSONInt, JSONString, JSONFloat or JSONBool variable is left as it is, without an error: the code assigns to a copy. -/
theorem C38_json_value (s : Bytes) (x : UV) : (J.str s).unmarshal P [] (.jval .str) x = uok x := rfl

/-! ## C46 -/

/-- **C46, false as stated.** At the root, numbers and booleans are not stored: the variable, of whatever type, gets its
zero value, and there is no error. -/
theorem C46_scalar_root (t : Ty) (x : UV) :
    (∀ n, (J.int n).unmarshal P [] t x = uok (P.zero t)) ∧ (∀ y bit, (J.float y bit).unmarshal P [] t x = uok (P.zero t)) ∧
    (∀ b, (J.bool b).unmarshal P [] t x = uok (P.zero t)) :=
  ⟨fun _ => rfl, fun _ _ => rfl, fun _ => rfl⟩

/-- **C46, what holds.** Texts at the root, and every scalar under a key, are stored in a variable of their own kind. -/
theorem C46_scalar_key (x : UV) {kvs : SMap J} {id : Int} {k : Bytes} :
    (∀ s, (J.str s).unmarshal P [] .string x = uok (.str s)) ∧
    (∀ s, smGet kvs k = some (.str s) → (J.dict id kvs).unmarshal P [k] .string x = uok (.str s)) ∧
    (∀ n b, 0 < b → -2 ^ (b - 1) ≤ n → n < 2 ^ (b - 1) → smGet kvs k = some (.int n) → (J.dict id kvs).unmarshal P [k] (.int b) x = uok (.int n)) ∧
    (∀ n b, 0 ≤ n → n < 2 ^ b → smGet kvs k = some (.int n) → (J.dict id kvs).unmarshal P [k] (.uint b) x = uok (.int n)) ∧
    (∀ y bit, smGet kvs k = some (.float y bit) → (J.dict id kvs).unmarshal P [k] .float64 x = uok (.float y)) ∧
    (∀ b, smGet kvs k = some (.bool b) → (J.dict id kvs).unmarshal P [k] .bool x = uok (.bool b)) := by
  refine ⟨fun s => rfl, ?_, ?_, ?_, ?_, ?_⟩
  · intro s h; rw [unmarshal_key _ k kvs id h]; rfl
  · intro n b hb h1 h2 h; rw [unmarshal_key _ k kvs id h]; simp only [J.unm, unmInt, wrapI_range b hb n h1 h2]
  · intro n b h1 h2 h; rw [unmarshal_key _ k kvs id h]; simp only [J.unm, unmInt, wrapU, Int.emod_eq_of_lt h1 h2]
  · intro y bit h; rw [unmarshal_key _ k kvs id h]; rfl
  · intro b h; rw [unmarshal_key _ k kvs id h]; rfl

example : smGet [(b!"k", J.int 7)] b!"k" = some (.int 7) := rfl

end Jsonutils.Props
