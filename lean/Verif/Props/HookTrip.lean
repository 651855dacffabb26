import Verif.Proofs.HookTrip
import Verif.Props.Hooks
import Verif.Props.Marshal

/-!
# Round trips through the methods of the user's types: C70

`M`: the methods `MarshalJSON`, `UnmarshalJSON` and `AfterUnmarshal` of the user's types, and `time.Time`.
-/

namespace Jsonutils.Props
open Rfc

variable {ord : SMap Bytes → List (Bytes × Bytes)} {pick : List Nat → Nat} {M : Codec} {P : UEnv}

/-! ## C70 -/

/-- **C70.** `Marshal` (`oe`) or `MarshalAll` any value of a round-trip type, in any memory; put the document under any key of any
dictionary `d`: `d.Unmarshal(&x, key)` into a fresh variable restores the value, if its methods agree. -/
theorem C70_restores (hord : ∀ dep, (ord dep).Perm dep) {oe : Bool} (hP : P.RoundTripsH M false) {t : Ty} (ht : t.RoundTripsH M false)
    {h : List GV} {g : GV} {v : UV} (hv : IsValueH M P.defs h g v t) (hr : v.RestorableH M P oe false t) {n : Nat} {j : J}
    (hm : marshal ord pick oe h n g = some j) {k : Bytes} {kvs : SMap J} {id : Int} (hk : smGet kvs k = some j) :
    (J.dict id kvs).unmarshalH M.toHooks P [k] t (P.zero t) = uok (v.restoredH M P oe t) := by
  rw [unmarshalH_key j k kvs id hk]
  exact (restoresH hord hP ht hv hr hm).1

/-- **C70, at the root.** The same for `Marshal(v).Unmarshal(&x)`, if the document is a dictionary, an array, a text or null: numbers
and booleans that a `MarshalJSON` method returns do not reach the `UnmarshalJSON` method at the root (C46). -/
theorem C70_root (hord : ∀ dep, (ord dep).Perm dep) {oe : Bool} (hP : P.RoundTripsH M false) {t : Ty} (ht : t.RoundTripsH M false)
    {h : List GV} {g : GV} {v : UV} (hv : IsValueH M P.defs h g v t) (hr : v.RestorableH M P oe false t) {n : Nat} {j : J}
    (hm : marshal ord pick oe h n g = some j) (hj : j.Rooted ∨ j = .null) : j.unmarshalH M.toHooks P [] t (P.zero t) = uok (v.restoredH M P oe t) := by
  obtain ⟨h1, h2⟩ := restoresH hord hP ht hv hr hm
  rcases hj with hj | rfl
  · rw [unmarshalH_rooted hj]
    simpa [J.seen] using h1
  · rw [h2 rfl]; rfl

/-- **C70, through the text.** The document printed, parsed, and unmarshalled. -/
theorem C70_text (hord : ∀ dep, (ord dep).Perm dep) {oe : Bool} (hP : P.RoundTripsH M true) {t : Ty} (ht : t.RoundTripsH M true)
    {h : List GV} {g : GV} {v : UV} (hv : IsValueH M P.defs h g v t) (hr : v.RestorableH M P oe true t) (hg : g.NoIds) (hh : ∀ x ∈ h, x.NoIds)
    (hok : ValuesOk h g) {n : Nat} {j : J} (hm : marshal ord pick oe h n g = some j) (hj : j.Rooted ∨ j = .null) :
    ∃ d, parse j.toBytes = .ok d ∧ d.unmarshalH M.toHooks P [] t (P.zero t) = uok (v.restoredH M P oe t) := by
  obtain ⟨h1, h2⟩ := restoresH hord hP ht hv hr hm
  obtain ⟨b1, b2⟩ := marshal_bare ⟨_, hv.2⟩ hg hh hm
  obtain ⟨b3, b4⟩ := marshal_wf hord hok hm
  refine ⟨j.reread, parse_toBytes j b3 (b4 fun id hi => ?_) (by rw [b1]; simp), ?_⟩
  · rw [b1, b2] at hi; simp at hi
  · rcases hj with hj | rfl
    · have hr : j.reread.Rooted := by cases j <;> first | exact hj.elim | trivial
      rw [unmarshalH_rooted hr]
      simpa [J.seen] using h1
    · rw [h2 rfl]; rfl

/-- **C70, when nothing is lost.** For tidy values what comes back is the value itself. -/
theorem C70_identity {oe : Bool} {v : UV} {t : Ty} (hv : v.HasTy P.defs t) (ht : v.TidyH M P oe t) : v.restoredH M P oe t = v := by
  unfold UV.restoredH
  split
  · rename_i h; exact (tidyH_null hv ht h).symm
  · exact normH_tidy v t hv ht

/-- **C70, what is written.** `MarshalJSON` returns a text of RFC 8259: its document is what `Marshal` writes.  If the method returns
an error, or a text that `Parse` rejects, `Marshal` panics. -/
theorem C70_written (w : Ws) (d : Tree) (w' : Ws) (h : d.Ok) : stdMarshal (some (wsText w ++ d.text ++ wsText w')) = some d.val ∧
    stdMarshal none = none ∧ ∀ s, (∀ d, parse s ≠ .ok d) → stdMarshal (some s) = none := by
  refine ⟨?_, rfl, ?_⟩
  · simp only [stdMarshal, (C04_rfc8259_accepted w d w' h).2]
  · intro s hs
    cases hp : parse s with
    | ok d => exact absurd hp (hs d)
    | _ => simp only [stdMarshal, hp]

/-- **C70, what does not come back.** A struct type `T` with both methods, `MarshalJSON` with a pointer receiver.  `*T` is
written by the method; but a `T`, for instance in a field, is written field by field, while what is written goes back through
`UnmarshalJSON`. -/
theorem C70_receiver {n : Nat} {m : UV → Option Bytes} {h : Bytes → UV → URes} (he : M.enc (.struct n) = some (true, m)) (hs : M.std (.struct n) = some h)
    (ht : M.isTime (.struct n) = false) (hM : M.Ok) (D : Defs) (vs : List UV) (id : Int) (kvs : SMap J) (x : UV) :
    (UV.ptr (.struct vs)).toTVH M D (.ptr (.struct n)) = .leaf (.std ((stdMarshal (m (.struct vs))).getD .null)) ∧
    (UV.struct vs).toTVH M D (.struct n) = .struct (UV.toTVHf M D vs (D.getD n [])) ∧
    (J.dict id kvs).unmH M.toHooks P (.struct n) x = h (J.dict id kvs).toBytes x := by
  refine ⟨?_, ?_, ?_⟩
  · have h1 : M.isTime (.ptr (.struct n)) = false := time_struct hM (by simp)
    simp [UV.toTVH, Codec.direct, Codec.written, h1, Codec.method, he]
  · simp [UV.toTVH, Codec.direct, ht, Codec.method, he, Ty.fields]
  · refine (C66_called (T := .struct n) trivial hs 0 (.dict id kvs) (by simp) (by simp) ht x).trans ?_
    cases hx : h (J.dict id kvs).toBytes x <;> simp [UEnv.pointee, hx, UV.ptrs]

/-! ### An example

`type Level struct {level int}`, written as "low" or "high" by `MarshalJSON` with a value receiver; `time.Time`; and
`struct { L Level; P **Level; T time.Time; Q *time.Time; Lo, Hi int }` with an `AfterUnmarshal` method that orders `Lo` and `Hi`. -/

def exOrder2 : List UV → List UV
  | [l, p, t, q, .int a, .int b] => if a ≤ b then [l, p, t, q, .int a, .int b] else [l, p, t, q, .int b, .int a]
  | vs => vs

def exEncLevel : UV → Option Bytes
  | .struct [.int 1] => some b!"\"low\""
  | .struct [.int 2] => some b!"\"high\""
  | _ => none

def exEncTime : UV → Option Bytes
  | .struct [.str s] => if s = b!"2020" then some b!"\"2020-01-01T00:00:00Z\"" else none
  | _ => none

def exFmt : UV → Option Bytes
  | .struct [.str s] => if s = b!"2020" then some b!"2020-01-01" else none
  | _ => none

def exCodec : Codec where
  toHooks := { exHooks with after := fun n vs => if n = 2 then exOrder2 vs else vs }
  enc := fun t => if t = .struct 0 then some (false, exEncLevel) else if t = .struct 1 then some (false, exEncTime) else none
  fmt := exFmt

def exFs : List (FInfo × Ty) := [({ name := b!"l" }, .struct 0), ({ name := b!"p" }, .ptr (.ptr (.struct 0))), ({ name := b!"t" }, .struct 1),
  ({ name := b!"q" }, .ptr (.struct 1)), ({ name := b!"lo" }, .int 64), ({ name := b!"hi" }, .int 64)]

def exCP : UEnv where
  defs := [[({ name := b!"level", ignore := true }, .int 64)], [({ name := b!"wall", ignore := true }, .string)], exFs]
  idx := fun n k => if n = 2 then (if k = b!"l" then [0] else if k = b!"p" then [1] else if k = b!"t" then [2] else if k = b!"q" then [3]
    else if k = b!"lo" then [4] else if k = b!"hi" then [5] else []) else []
  toBool := fun _ => false
  us := fun _ => false
  eu := fun _ => false
  trunc := fun _ => 0

theorem exLevel_byValue : exCodec.ByValue (.struct 0) := ⟨trivial, ⟨exEncLevel, rfl⟩, rfl⟩
theorem exTime_byPtr : exCodec.ByPtr (.struct 1) := ⟨trivial, rfl, rfl⟩

theorem exCP_roundTrips (text : Bool) : exCP.RoundTripsH exCodec text := by
  refine ⟨exHooks_ok, ?_, ?_⟩
  · intro n fs h i t hm
    match n with
    | 0 => simp [exCP] at h; subst h; simp at hm; rw [hm.2]; trivial
    | 1 => simp [exCP] at h; subst h; simp at hm; rw [hm.2]; trivial
    | 2 =>
      simp only [exCP, List.getElem?_cons_succ, List.getElem?_cons_zero, Option.some.injEq] at h
      subst h
      simp only [exFs, List.mem_cons, Prod.mk.injEq, List.not_mem_nil, or_false] at hm
      rcases hm with ⟨_, rfl⟩ | ⟨_, rfl⟩ | ⟨_, rfl⟩ | ⟨_, rfl⟩ | ⟨_, rfl⟩ | ⟨_, rfl⟩ <;> first | trivial | (simp only [Ty.Below]; decide)
    | n + 3 => simp [exCP] at h
  · intro n fs h
    match n with
    | 0 =>
      simp [exCP] at h; subst h
      refine ⟨by unfold DistinctNames; decide, ?_⟩
      intro k i t hk hi
      match k with
      | 0 => simp at hk; obtain ⟨rfl, rfl⟩ := hk; cases hi
      | k + 1 => simp at hk
    | 1 =>
      simp [exCP] at h; subst h
      refine ⟨by unfold DistinctNames; decide, ?_⟩
      intro k i t hk hi
      match k with
      | 0 => simp at hk; obtain ⟨rfl, rfl⟩ := hk; cases hi
      | k + 1 => simp at hk
    | 2 =>
      simp only [exCP, List.getElem?_cons_succ, List.getElem?_cons_zero, Option.some.injEq] at h
      subst h
      refine ⟨by unfold DistinctNames; decide, ?_⟩
      have hint : (Ty.int 64).RoundTripsH exCodec text := .inr ⟨rfl, rfl, rfl⟩
      intro k i t hk _
      match k with
      | 0 => simp [exFs] at hk; obtain ⟨rfl, rfl⟩ := hk; exact ⟨.inr (.inl exLevel_byValue), rfl, rfl, by decide⟩
      | 1 =>
        simp [exFs] at hk; obtain ⟨rfl, rfl⟩ := hk
        exact ⟨.inr ⟨.inl (byPtr_of_value exLevel_byValue), .inl ⟨.struct 0, 0, rfl, byPtr_of_value exLevel_byValue⟩⟩, rfl, rfl, by decide⟩
      | 2 => simp [exFs] at hk; obtain ⟨rfl, rfl⟩ := hk; exact ⟨.inl rfl, rfl, rfl, by decide⟩
      | 3 => simp [exFs] at hk; obtain ⟨rfl, rfl⟩ := hk; exact ⟨.inl exTime_byPtr, rfl, rfl, by decide⟩
      | 4 => simp [exFs] at hk; obtain ⟨rfl, rfl⟩ := hk; exact ⟨hint, rfl, rfl, by decide⟩
      | 5 => simp [exFs] at hk; obtain ⟨rfl, rfl⟩ := hk; exact ⟨hint, rfl, rfl, by decide⟩
      | k + 6 => simp [exFs] at hk
    | n + 3 => simp [exCP] at h

/-- Low, a pointer to a pointer to High, 2020, a pointer to 2020, 3, 5. -/
def exCV : UV := .struct [.struct [.int 1], .ptr (.ptr (.struct [.int 2])), .struct [.str b!"2020"], .ptr (.struct [.str b!"2020"]), .int 3, .int 5]

/-- What `Marshal` sees: the pointer to High is at address 0. -/
def exCG : GV := .struct [({ name := b!"l" }, .leaf (.std (.str b!"low"))), ({ name := b!"p" }, .ptr 0), ({ name := b!"t" }, .leaf (.time (some b!"2020-01-01"))),
  ({ name := b!"q" }, .leaf (.std (.str b!"2020-01-01T00:00:00Z"))), ({ name := b!"lo" }, .leaf (.int 3)), ({ name := b!"hi" }, .leaf (.int 5))]

theorem ex_std : stdMarshal (some b!"\"low\"") = some (.str b!"low") ∧ stdMarshal (some b!"\"high\"") = some (.str b!"high") ∧
    stdMarshal (some b!"\"2020-01-01T00:00:00Z\"") = some (.str b!"2020-01-01T00:00:00Z") := by
  refine ⟨by rfl, by rfl, by rfl⟩

theorem exCV_value : IsValueH exCodec exCP.defs [.leaf (.std (.str b!"high"))] exCG exCV (.struct 2) := by
  have lvl : ∀ n : Int, -2 ^ 63 ≤ n → n < 2 ^ 63 → (UV.struct [.int n]).HasTy exCP.defs (.struct 0) := by
    intro n h1 h2
    exact ⟨0, _, rfl, rfl, _, _, _, rfl, ⟨by decide, by decide, h1, h2⟩, rfl⟩
  have tm : (UV.struct [.str b!"2020"]).HasTy exCP.defs (.struct 1) := ⟨1, _, rfl, rfl, _, _, _, rfl, rfl, rfl⟩
  have i64 : ∀ n : Int, -2 ^ 63 ≤ n → n < 2 ^ 63 → (UV.int n).HasTy exCP.defs (.int 64) := by
    intro n h1 h2
    exact ⟨by decide, by decide, h1, h2⟩
  refine ⟨?_, ?_⟩
  · exact ⟨2, _, rfl, rfl, _, _, _, rfl, lvl 1 (by decide) (by decide), _, _, _, rfl, ⟨_, rfl, _, rfl, lvl 2 (by decide) (by decide)⟩, _, _, _, rfl, tm,
      _, _, _, rfl, ⟨_, rfl, tm⟩, _, _, _, rfl, i64 3 (by decide) (by decide), _, _, _, rfl, i64 5 (by decide) (by decide), rfl⟩
  · have : exCV.toTVH exCodec exCP.defs (.struct 2) = .struct [({ name := b!"l" }, .leaf (.std (.str b!"low"))),
        ({ name := b!"p" }, .ptr (.leaf (.std (.str b!"high")))), ({ name := b!"t" }, .leaf (.time (some b!"2020-01-01"))),
        ({ name := b!"q" }, .leaf (.std (.str b!"2020-01-01T00:00:00Z"))), ({ name := b!"lo" }, .leaf (.int 3)), ({ name := b!"hi" }, .leaf (.int 5))] := by rfl
    rw [this]
    exact .struct (.cons (.leaf _) (.cons (.ptr rfl (.leaf _)) (.cons (.leaf _) (.cons (.leaf _) (.cons (.leaf _) (.cons (.leaf _) .nil))))))

theorem exCV_restorable (oe text : Bool) : exCV.RestorableH exCodec exCP oe text (.struct 2) := by
  have seen : ∀ s, (J.str s).seen text = .str s := seen_str text
  have agree : ∀ (T : Ty) (x : UV) m h s d, exCodec.enc T = some (false, m) → exCodec.std T = some h → m x = some s → parse s = .ok (.str d) →
      h (J.str d).toBytes (exCP.zero T) = uok x → exCodec.Agree exCP text T x := by
    intro T x m h s d h1 h2 h3 h4 h5
    exact ⟨false, m, h, s, .str d, h1, h2, h3, h4, by simp, by simp, by rw [seen]; exact h5⟩
  have e1 : exCodec.direct (.struct 2) = false := rfl
  have e2 : exCodec.direct (.struct 0) = true := rfl
  have e3 : exCodec.direct (.struct 1) = true := rfl
  have e4 : exCodec.direct (.ptr (.ptr (.struct 0))) = false := rfl
  have e5 : exCodec.direct (.ptr (.struct 0)) = true := rfl
  have e6 : exCodec.direct (.ptr (.struct 1)) = true := rfl
  have e7 : exCodec.direct (.int 64) = false := rfl
  have hf : (Ty.struct 2).fields exCP.defs = exFs := rfl
  simp only [exCV, UV.RestorableH, e1, e2, e3, e4, e5, e6, e7, hf, exFs, UV.RestorableHf, Ty.elem, Bool.false_eq_true, if_true, if_false, UV.Restorable,
    implies_true, and_true, forall_const]
  refine ⟨.inr (agree _ _ exEncLevel exLevel _ b!"low" rfl rfl rfl (by rfl) (by rfl)),
    .inr (agree _ _ exEncLevel exLevel _ b!"high" rfl rfl rfl (by rfl) (by rfl)), .inl rfl,
    .inr (agree _ _ exEncTime exTime _ b!"2020-01-01T00:00:00Z" rfl rfl rfl (by rfl) (by rfl))⟩

theorem exCV_tidy (oe : Bool) : exCV.TidyH exCodec exCP oe (.struct 2) := by
  have e1 : exCodec.direct (.struct 2) = false := rfl
  have e2 : exCodec.direct (.struct 0) = true := rfl
  have e3 : exCodec.direct (.struct 1) = true := rfl
  have e4 : exCodec.direct (.ptr (.ptr (.struct 0))) = false := rfl
  have e5 : exCodec.direct (.ptr (.struct 0)) = true := rfl
  have e6 : exCodec.direct (.ptr (.struct 1)) = true := rfl
  have e7 : exCodec.direct (.int 64) = false := rfl
  have hf : (Ty.struct 2).fields exCP.defs = exFs := rfl
  simp only [exCV, UV.TidyH, e1, e2, e3, e4, e5, e6, e7, hf, exFs, UV.TidyHf, Ty.elem, Bool.false_eq_true, if_true, if_false, UV.nullLike,
    and_true, true_and, false_or]
  refine ⟨⟨?_, rfl, ?_, rfl, ?_, rfl, ?_, rfl, ?_, ?_⟩, ?_⟩
  · rintro ⟨_, h⟩; cases h
  · rintro ⟨_, h⟩; cases h
  · rintro ⟨_, h⟩; cases h
  · rintro ⟨_, h⟩; cases h
  · rintro ⟨_, h⟩; cases h
  · rintro ⟨_, h⟩; cases h
  · intro n hn; cases hn; rfl

example : (marshal id List.head! true [.leaf (.std (.str b!"high"))] 2 exCG).map (·.unmarshalH exCodec.toHooks exCP [] (.struct 2) (exCP.zero (.struct 2))) = some (uok exCV) := by
  cases h : marshal id List.head! true [.leaf (.std (.str b!"high"))] 2 exCG with
  | none => exact absurd h (by decide)
  | some j =>
    have hj : j.Rooted := by
      have : marshal id List.head! true [.leaf (.std (.str b!"high"))] 2 exCG = some (.dict 0 _) := rfl
      rw [this] at h; cases h; trivial
    simp only [Option.map_some]
    rw [C70_root (fun _ => .refl _) (exCP_roundTrips false) (t := .struct 2) (.inr (.inr ⟨rfl, rfl, rfl⟩)) exCV_value
      (exCV_restorable _ _) h (.inl hj), C70_identity exCV_value.1 (exCV_tidy true)]

/-- A pointer receiver is possible. -/
example : ∃ M : Codec, M.Ok ∧ M.enc (.struct 0) = some (true, exEncLevel) ∧ M.std (.struct 0) = some exLevel ∧ M.isTime (.struct 0) = false :=
  ⟨{ exCodec with enc := fun _ => some (true, exEncLevel) }, exHooks_ok, rfl, rfl, rfl⟩

end Jsonutils.Props
