import Verif.Proofs.Hooks
import Verif.Props.Parse
import Verif.Proofs.Equals

/-!
# Methods of the user's types: C66, C67

`d.unmarshalH H P keys t x`: the call `d.Unmarshal(&x, keys...)` where types have the methods `H`; `j.unmH H P t x`: the
document `j` found inside goes into the variable `x` of type `t`.
-/

namespace Jsonutils.Props
open Rfc

variable {H : Hooks} {P : UEnv}

/-! ## C66 -/

/-- **C66, methods are found by type.** Types in which no methods and no `time.Time` occur: everything is as if there were no
methods at all. -/
theorem C66_bare (hH : H.Ok) {S : Nat → Prop} (hS : H.Closed P S) {t : Ty} (ht : t.Bare H S) (j : J) (keys : List Bytes) (x : UV) :
    j.unmarshalH H P keys t x = j.unmarshal P keys t x := by
  cases keys with
  | nil => cases j <;> simp only [J.unmarshalH, J.unmarshal] <;> exact unmH_bare hH hS _ t x ht
  | cons k ks =>
    simp only [J.unmarshalH, J.unmarshal]
    cases j.get (k :: ks) <;> simp only
    exact unmH_bare hH hS _ t x ht

/-- **C66, the call.** A document other than null or a reference goes into a variable of type `*...*T`, where `T` has an
`UnmarshalJSON` method: missing pointers are allocated, and the method is called on the variable behind them, with the text of
the document; its result and error are the result.  (Texts and `time.Time` itself: C66_time.) -/
theorem C66_called {T : Ty} (hT : T.NoPointer) {h : Bytes → UV → URes} (hh : H.std T = some h) (k : Nat) (j : J) (hn : j ≠ .null) (hr : ∀ id, j ≠ .ptr id)
    (ht : H.isTime (T.ptrs k) = false) (x : UV) :
    j.unmH H P (T.ptrs k) x = (h j.toBytes (P.pointee T k x)).map fun p => (p.1.ptrs k, p.2) :=
  unmH_called hT hh k j (by cases j <;> first | trivial | exact absurd rfl hn | exact absurd rfl (hr _)) (fun _ => ht) x

/-- **C66, the text.** It is a JSON text of RFC 8259, and `Parse` reads the same document from it (up to what C01 says about
floats). -/
theorem C66_text (j : J) (hw : j.WF) (hp : j.Plain) (hf : j.FiniteFloats) : IsJsonText j.toBytes ∧ parse j.toBytes = .ok j.reread := by
  have hr := refable_of_plain j hp
  refine ⟨C03_valid_rfc8259 j hw (plain_noPtr j hp) hf, parse_toBytes j hw hr.1 (by rw [hr.2]; simp)⟩

/-- **C66, null.** Null sets the variable to its zero value, and a reference the document does not define leaves it alone: no
method is called, also none of `T`. -/
theorem C66_null (t : Ty) (x : UV) (id : Int) : J.null.unmH H P t x = uok (P.zero t) ∧ (J.ptr id).unmH H P t x = uok x := by
  simp only [J.unmH, and_self]

/-- **C66, times.** A text goes into a `time.Time`: never an error, whatever the text, and the empty text is the zero time.  Into
a `*time.Time` it goes through `UnmarshalJSON`, with its errors, also for the empty text. -/
theorem C66_time (hH : H.Ok) {n : Nat} (ht : H.isTime (.struct n) = true) (s : Bytes) (x : UV) :
    (J.str s).unmH H P (.struct n) x = uok (if s = [] then P.zero (.struct n) else H.parseTime s) ∧
    ∀ h, H.std (.struct n) = some h → ∀ k, (J.str s).unmH H P ((Ty.struct n).ptrs (k + 1)) x =
      (h (J.str s).toBytes (P.pointee (.struct n) (k + 1) x)).map fun p => (p.1.ptrs (k + 1), p.2) := by
  refine ⟨?_, fun h hh k => C66_called (T := .struct n) trivial hh (k + 1) _ (by simp) (by simp) ?_ x⟩
  · simp only [J.unmH, Hooks.strVal, ht, if_true, List.isEmpty_iff]
  · cases hi : H.isTime ((Ty.struct n).ptrs (k + 1)) with
    | false => rfl
    | true => obtain ⟨m, hm⟩ := hH _ hi; simp [Ty.ptrs] at hm

/-! `type Level int` with an `UnmarshalJSON` method that knows "low" and "high"; `time.Time`; and
`struct { L *Level; T time.Time; Lo, Hi int }` with an `AfterUnmarshal` method that orders `Lo` and `Hi`. -/

def exLevel : Bytes → UV → URes := fun text v =>
  if text = b!"\"low\"" then uok (.struct [.int 1]) else if text = b!"\"high\"" then uok (.struct [.int 2]) else uerr v .num

def exTime : Bytes → UV → URes := fun text v =>
  if text = b!"\"2020-01-01T00:00:00Z\"" then uok (.struct [.str b!"2020"]) else uerr v .num

def exOrder : List UV → List UV
  | [l, t, .int a, .int b] => if a ≤ b then [l, t, .int a, .int b] else [l, t, .int b, .int a]
  | vs => vs

def exHooks : Hooks where
  std := fun t => if t = .struct 0 then some exLevel else if t = .struct 1 then some exTime else none
  after := fun n vs => if n = 2 then exOrder vs else vs
  isTime := fun t => t == .struct 1
  parseTime := fun s => if s = b!"2020-01-01" then .struct [.str b!"2020"] else .struct [.str []]

def exHP : UEnv where
  defs := [[({ name := b!"level" }, .int 64)], [({ name := b!"wall" }, .string)],
    [({ name := b!"l" }, .ptr (.struct 0)), ({ name := b!"t" }, .struct 1), ({ name := b!"lo" }, .int 64), ({ name := b!"hi" }, .int 64)]]
  idx := fun n k => if n = 2 then (if k = b!"l" then [0] else if k = b!"t" then [1] else if k = b!"lo" then [2] else if k = b!"hi" then [3] else []) else []
  toBool := fun _ => false
  us := fun _ => false
  eu := fun _ => false
  trunc := fun _ => 0

theorem exHooks_ok : exHooks.Ok := by
  intro t ht
  simp only [exHooks, beq_iff_eq] at ht
  exact ⟨1, ht⟩

/-- A nil pointer is allocated for the method, and an error of the method is the error of the call. -/
example : (J.str b!"high").unmH exHooks exHP ((Ty.struct 0).ptrs 1) .nil = uok (.ptr (.struct [.int 2])) ∧
    (J.int 7).unmH exHooks exHP ((Ty.struct 0).ptrs 1) .nil = uerr (.ptr (.struct [.int 0])) .num := by
  constructor
  · rw [C66_called (T := .struct 0) (H := exHooks) (h := exLevel) trivial (by rfl) 1 (.str b!"high") (by simp) (by simp) (by decide)]; rfl
  · rw [C66_called (T := .struct 0) (H := exHooks) (h := exLevel) trivial (by rfl) 1 (.int 7) (by simp) (by simp) (by decide)]; rfl

/-- The zero time is marshalled as the empty text (marshal.go:235-244), which a `time.Time` reads back; `UnmarshalJSON`, behind
a pointer, may reject it. -/
example : (J.str []).unmH exHooks exHP (.struct 1) (.struct [.str b!"old"]) = uok (.struct [.str []]) ∧
    (J.str []).unmH exHooks exHP (.ptr (.struct 1)) .nil = uerr (.ptr (.struct [.str []])) .num := by
  constructor
  · rw [(C66_time exHooks_ok (by decide) _ _).1]; rfl
  · have := (C66_time (P := exHP) exHooks_ok (n := 1) (by decide) [] .nil).2 exTime (by rfl) 0
    simp only [Ty.ptrs] at this
    rw [this]; rfl

/-- `map[string][]int` has no methods. -/
example : (Ty.map (.slice (.int 64))).Bare exHooks (fun _ => False) ∧ exHooks.Closed exHP (fun _ => False) := by
  refine ⟨⟨rfl, rfl, rfl⟩, fun n h => h.elim⟩

/-! ## C67 -/

/-- **C67.** Let `I` be an invariant of structs that zero values satisfy, that `AfterUnmarshal` establishes, and that
`UnmarshalJSON` methods respect.  If all structs in a variable satisfy it, then so they do after every `Unmarshal` into it,
whatever the document, also if it returns an error. -/
theorem C67_invariant {I : Nat → List UV → Prop} (hk : H.Keeps P I) (j : J) (keys : List Bytes) {t : Ty} {x w : UV} {e : Option UErr}
    (hx : x.Inv I P.defs t) (h : j.unmarshalH H P keys t x = some (w, e)) : w.Inv I P.defs t := by
  cases keys with
  | nil =>
    cases j with
    | str s => exact inv_unmH hk _ t x hx w e h
    | arr s => exact inv_unmH hk _ t x hx w e h
    | dict id s => exact inv_unmH hk _ t x hx w e h
    | _ => cases h; exact hk.zero t
  | cons k ks =>
    simp only [J.unmarshalH] at h
    split at h
    · exact inv_unmH hk _ t x hx w e h
    · cases h; exact hx
    · cases h

/-- `Lo ≤ Hi`, for the struct above. -/
def exI : Nat → List UV → Prop := fun n vs => n = 2 → match vs with
  | [_, _, .int a, .int b] => a ≤ b
  | _ => True

theorem inv_scalar {I : Nat → List UV → Prop} {D : Defs} {t : Ty} (vs : List UV) (h : ∀ n, t = .struct n → I n vs)
    (hv : ∀ x ∈ vs, ∀ t', x.Inv I D t') : (UV.struct vs).Inv I D t := by
  refine ⟨h, ?_⟩
  rw [invf_iff]
  intro q x i t' hx _
  exact hv x (List.mem_of_getElem? hx) t'

theorem exKeeps : exHooks.Keeps exHP exI := by
  have level : ∀ (n : Int) t, (UV.struct [.int n]).Inv exI exHP.defs t := fun n t =>
    inv_scalar _ (by intro m _ hm; simp) (by intro x hx t'; simp at hx; subst hx; trivial)
  have wall : ∀ (s : Bytes) t, (UV.struct [.str s]).Inv exI exHP.defs t := fun n t =>
    inv_scalar _ (by intro m _ hm; simp) (by intro x hx t'; simp at hx; subst hx; trivial)
  refine ⟨?_, ?_, ?_, ?_⟩
  · have h2 : ∀ t, (UV.struct [.nil, .struct [.str []], .int 0, .int 0]).Inv exI exHP.defs t := fun t =>
      inv_scalar _ (by intro m _ hm; simp) (by
        intro x hx t'
        simp at hx
        rcases hx with rfl | rfl | rfl
        · trivial
        · exact wall _ _
        · trivial)
    have hz : zerosOf exHP.defs [] = [.struct [.int 0], .struct [.str []], .struct [.nil, .struct [.str []], .int 0, .int 0]] := rfl
    intro t
    induction t with
    | struct n =>
      simp only [UEnv.zero, Ty.zeroIn, hz]
      match n with
      | 0 => exact level _ _
      | 1 => exact wall _ _
      | 2 => exact h2 _
      | n + 3 => trivial
    | array n t ih =>
      simp only [UEnv.zero, Ty.zeroIn, UV.Inv, Ty.elem, invs_iff]
      intro x hx
      rw [(List.mem_replicate.1 hx).2]
      exact ih
    | _ => trivial
  · intro n vs hvs
    by_cases hn : n = 2
    · subst hn
      simp only [exHooks, if_true]
      unfold exOrder
      split
      · rename_i l t a b
        split
        · rename_i hab; exact ⟨fun _ => hab, hvs⟩
        · rename_i hab
          refine ⟨fun _ => by simp only; omega, ?_⟩
          simp only [exHP, List.getD_cons_succ, List.getD_cons_zero, UV.Invf] at hvs ⊢
          exact ⟨hvs.1, hvs.2.1, trivial, trivial, trivial⟩
      · rename_i hno
        refine ⟨fun _ => ?_, hvs⟩
        split
        · rename_i l t a b; exact absurd rfl (hno l t a b)
        · trivial
    · simp only [exHooks, if_neg hn]
      exact ⟨fun h => absurd h hn, hvs⟩
  · intro t h hh text v w e hv hw
    simp only [exHooks] at hh
    split at hh
    · cases hh
      simp only [exLevel] at hw
      split at hw
      · cases hw; exact level _ _
      · split at hw
        · cases hw; exact level _ _
        · cases hw; exact hv
    · split at hh
      · cases hh
        simp only [exTime] at hw
        split at hw
        · cases hw; exact wall _ _
        · cases hw; exact hv
      · cases hh
  · intro t _ s
    simp only [exHooks]
    split <;> exact wall _ _

/-- `{"hi": 1, "l": 7, "lo": 5}`: `l` has an error, and `lo`, `hi` are put in order all the same. -/
example : (J.dict 0 [(b!"hi", .int 1), (b!"l", .int 7), (b!"lo", .int 5)]).unmarshalH exHooks exHP [] (.struct 2) (exHP.zero (.struct 2)) =
    uerr (.struct [.ptr (.struct [.int 0]), .struct [.str []], .int 1, .int 5]) (.agg [.num]) := by rfl

/-- **C67, the calls.** The methods are called in order from the innermost embedded structs to the outermost, once for each struct
that is there: the method Go finds for it, its own if it has one. -/
theorem C67_calls (e : Emb) : e.calls = e.present.flatMap Emb.method ∧ ∀ s ∈ e.present, s.own = true → s.method = [⟨s.name, false⟩] :=
  ⟨calls_present e, fun s _ => method_own s⟩

/-- **C67, the method Go finds.** It is the declaration at the least depth of embedding at which there is one, if there is only one at
that depth (else none is called); it is called on a nil pointer if some pointer on the way to it is nil. -/
theorem C67_promoted (e : Emb) (c : ACall) : (e.method = [c] ↔ ∃ d, e.decls d = [c] ∧ ∀ d' < d, e.decls d' = []) ∧ (e.method = [] ∨ ∃ c, e.method = [c]) := by
  refine ⟨(method_spec e).1 c, ?_⟩
  have := (method_spec e).2
  match h : e.method with
  | [] => exact .inl rfl
  | [c] => exact .inr ⟨c, rfl⟩
  | _ :: _ :: _ => rw [h] at this; simp at this

/-- Through two pointers, the outer one nil. -/
example (a b c : Nat) : (Emb.mk a false [(true, .mk b false [(false, .mk c true [])])]).method = [⟨c, true⟩] :=
  (C67_promoted _ ⟨c, true⟩).1.2 ⟨2, rfl, by intro d hd; match d, hd with | 0, _ => rfl | 1, _ => rfl⟩

/-- Through two pointers, the inner one nil. -/
example (a b c : Nat) : (Emb.mk a false [(false, .mk b false [(true, .mk c true [])])]).method = [⟨c, true⟩] :=
  (C67_promoted _ ⟨c, true⟩).1.2 ⟨2, rfl, by intro d hd; match d, hd with | 0, _ => rfl | 1, _ => rfl⟩

/-- So if every struct declares its own, each method is called exactly once. -/
theorem C67_once (e : Emb) (h : ∀ s ∈ e.present, s.own = true) : e.calls = e.present.map fun s => ⟨s.name, false⟩ := by
  rw [(C67_calls e).1]
  have : ∀ l : List Emb, (∀ s ∈ l, s.own = true) → l.flatMap Emb.method = l.map fun s => ⟨s.name, false⟩ := by
    intro l
    induction l with
    | nil => intro _; rfl
    | cons a l ih =>
      intro hl
      simp only [List.flatMap_cons, List.map_cons, ih fun s hs => hl s (List.mem_cons_of_mem _ hs), method_own a (hl a (List.mem_cons_self ..))]
      rfl
  exact this _ h

/-- **C67, once too often.** A struct that embeds one with an `AfterUnmarshal` method, and has none itself: the method is promoted,
and called twice. -/
theorem C67_twice (outer inner : Nat) : (Emb.mk outer false [(false, .mk inner true [])]).calls = [⟨inner, false⟩, ⟨inner, false⟩] := rfl

/-- **C67, on nil.** The same through a nil pointer: the method is called on the nil pointer. -/
theorem C67_nil (outer inner : Nat) : (Emb.mk outer false [(true, .mk inner true [])]).calls = [⟨inner, true⟩] := rfl

/-- Two embedded structs, both with methods: Go promotes neither, so each is called once. -/
example (a b c : Nat) : (Emb.mk a false [(false, .mk b true []), (false, .mk c true [])]).calls = [⟨b, false⟩, ⟨c, false⟩] := rfl

example : (∀ s ∈ (Emb.mk 0 true [(false, .mk 1 true []), (true, .mk 2 false [])]).present, s.own = true) := by
  simp [Emb.present, Emb.presents, Emb.own]

end Jsonutils.Props
