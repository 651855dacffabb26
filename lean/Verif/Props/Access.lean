import Verif.Props.Dict
import Verif.Props.Numeral

/-!
# C50: which accessor returns a value on which kind of document

Stated as "the call returns `x` exactly if …" for every document that is not a dictionary (for dictionaries C26 reduces
every accessor to the value the path leads to).
-/

namespace Jsonutils.Props

/-- Kinds with a textual or numeric content of their own. -/
def IsScalar (v : J) : Prop := ¬ v.IsDict ∧ (∀ xs, v ≠ .arr xs) ∧ v ≠ .null ∧ (∀ id, v ≠ .ptr id)

/-- **C50.** No accessor given a non-empty path ever returns a value on a document that is not a dictionary. -/
theorem C50_no_keys (v : J) (h : ¬ v.IsDict) (fold : Bytes → Bytes) (f : Nat) (i : Int) (k : Bytes) (ks : List Bytes) :
    (∃ e, v.get (k :: ks) = .err e) ∧ (∃ e, v.getIgnoreCases fold (k :: ks) = .err e) ∧ v.contains (k :: ks) = false ∧
    v.getString (k :: ks) = .err .outOfKeyRange ∧ (∃ e, v.int? (f + 1) (k :: ks) = .err e) ∧
    (∃ e, v.float? (f + 1) (k :: ks) = .err e) ∧ (∃ e, v.bool? (f + 1) (k :: ks) = .err e) ∧
    (∃ e, v.getMap (k :: ks) = .err e) ∧ (∃ e, v.getArray (k :: ks) = .err e) ∧ (∃ e, v.getAt i (k :: ks) = .err e) := by
  cases v with
  | dict i m => exact absurd trivial h
  | _ =>
    simp [J.get, J.getIgnoreCases, J.contains, J.getString, J.int?, J.float?, J.bool?, J.getMap, J.getArray, J.getAt,
      J.scalarAcc]

/-- The words and digits for a truth value (`asciiFold`: U+017F counts as `s`, U+212A as `k`). -/
def IsTruthText (s : Bytes) (b : Bool) : Prop :=
  if b then lowerBytes (asciiFold s) ∈ [b!"true", b!"on", b!"yes"] ∨ s = b!"1"
  else lowerBytes (asciiFold s) ∈ [b!"false", b!"off", b!"no"] ∨ s = b!"0"

private theorem float_int {n : Int} (hn : InI64 n) (x : GoFloat) : floatOfInt n = x ↔ ∃ m e, x = .fin (n < 0) m e ∧ NearestEven f64 n.natAbs 1 m e := by
  obtain ⟨_, m, e, h1, h2⟩ := C69_accessor 0 ⟨false, [0], none, none, by simp, by simp, by simp⟩ (by intro e h; cases h) n hn
  have h : (J.int n).float? (0 + 1) [] = .ok (floatOfInt n) := by simp only [J.float?, J.scalarAcc]
  rw [h] at h1
  injection h1 with h1
  constructor
  · rintro rfl; exact ⟨m, e, h1, h2⟩
  · rintro ⟨m', e', rfl, h3⟩
    obtain ⟨a, b⟩ := nearest_unique (by decide) (by decide) h2 h3
    rw [h1, a, b]

/-- Without a path: exactly which value each accessor returns. -/
theorem C50_kinds (v : J) (h : ¬ v.IsDict) (hv : ∀ n, v = .int n → InI64 n) (f : Nat) (i : Int) :
    (∀ s, v.getString [] = .ok s ↔ (v = .str s ∨ ((∀ t, v ≠ .str t) ∧ ((∃ id, v = .ptr id) ∧ s = b!"null" ∨
        (∀ id, v ≠ .ptr id) ∧ s = v.toBytes)))) ∧
    (∀ n, v.int? (f + 1) [] = .ok n ↔ v = .int n ∨ ∃ s, v = .str s ∧ DecimalText s n ∧ InI64 n) ∧
    (∀ x, v.float? (f + 1) [] = .ok x ↔ (∃ b, v = .float x b) ∨ (∃ n, v = .int n ∧ ∃ m e, x = .fin (n < 0) m e ∧ NearestEven f64 n.natAbs 1 m e) ∨
        ∃ s, v = .str s ∧ Numeral.Denotes s x) ∧
    (∀ b, v.bool? (f + 1) [] = .ok b ↔ v = .bool b ∨ ∃ s, v = .str s ∧ IsTruthText s b) ∧
    (∀ xs, v.getArray [] = .ok xs ↔ v = .arr xs ∨ IsScalar v ∧ xs = [v]) ∧
    (∀ m, v.getMap [] ≠ .ok m) ∧ (∀ w, v.get [] ≠ .ok w) ∧
    (∀ w, v.getAt i [] = .ok w → ∃ xs, v = .arr xs ∧ w ∈ xs) := by
  cases v with
  | dict i m => exact absurd trivial h
  | str s =>
    refine ⟨fun t => by simp [J.getString, J.string0], fun n => ?_, fun x => ?_, fun b => ?_, fun xs => ?_,
      fun m => by simp [J.getMap], fun w => by simp [J.get], fun w => by simp [J.getAt]⟩
    · have := (C24_integer_text f).2.1 s n
      simpa [newString] using this
    · simpa using (C71_accessors f s).2.2.1 x
    · have h1 := C25_boolean_text f s
      simp only [newString] at h1
      cases b with
      | true => simpa [IsTruthText] using h1.1
      | false => simpa [IsTruthText] using h1.2.1
    · simp only [J.getArray, J.array0, IsScalar, J.IsDict]
      simp [eq_comm]
  | arr ys =>
    refine ⟨fun t => by simp [J.getString, J.string0, eq_comm], fun n => by simp [J.int?, J.scalarAcc],
      fun x => by simp [J.float?, J.scalarAcc], fun b => by simp [J.bool?, J.scalarAcc], fun xs => ?_,
      fun m => by simp [J.getMap], fun w => by simp [J.get], fun w => ?_⟩
    · simp only [J.getArray, J.array0, IsScalar, J.IsDict]
      simp
    · simp only [J.getAt, arrGetAt]
      generalize (if i < 0 then (ys.length : Int) + i else i) = j
      intro hw
      refine ⟨ys, rfl, ?_⟩
      split at hw
      · split at hw
        · rename_i x hx; cases hw; exact List.mem_of_getElem? hx
        · cases hw
      · cases hw
  | int n =>
    refine ⟨fun t => by simp [J.getString, J.string0, eq_comm], fun n => by simp [J.int?, J.scalarAcc],
      fun x => by simpa [J.float?, J.scalarAcc] using float_int (hv n rfl) x, fun b => by simp [J.bool?, J.scalarAcc], fun xs => ?_,
      fun m => by simp [J.getMap], fun w => by simp [J.get], fun w => by simp [J.getAt]⟩
    simp only [J.getArray, J.array0, IsScalar, J.IsDict]
    simp [eq_comm]
  | _ =>
    refine ⟨fun t => by simp [J.getString, J.string0, eq_comm], fun n => by simp [J.int?, J.scalarAcc],
      fun x => by simp [J.float?, J.scalarAcc, eq_comm], fun b => by simp [J.bool?, J.scalarAcc], fun xs => ?_,
      fun m => by simp [J.getMap], fun w => by simp [J.get], fun w => by simp [J.getAt]⟩
    simp only [J.getArray, J.array0, IsScalar, J.IsDict]
    simp [eq_comm]

example : ¬ (J.int 5).IsDict ∧ (J.int 5).getArray [] = .ok [.int 5] ∧ (J.int 5).float? 1 [] = .ok (floatOfInt 5) ∧
    (J.str b!"YES").bool? 1 [] = .ok true := ⟨fun h => h, rfl, rfl, rfl⟩

/-- **C50, times.** `GetTime(path...)` returns `t` iff the path leads to a text and `t` is what the first layout that accepts the
text makes of it; on a text itself, iff there is no path. -/
theorem C50_time {T : Type} (layouts : List (Bytes → Option T)) (t : T) :
    (∀ s path, (J.str s).getTime layouts path = .ok t ↔ path = [] ∧ ∃ before p after, layouts = before ++ p :: after ∧ p s = some t ∧ ∀ q ∈ before, q s = none) ∧
    (∀ id kvs path, (J.dict id kvs).getTime layouts path = .ok t ↔ ∃ s, Walks (.dict id kvs) path (.str s) ∧ (J.str s).getTime layouts [] = .ok t) ∧
    (∀ (v : J) path, (∀ s, v ≠ .str s) → ¬ v.IsDict → v.getTime layouts path = .err .unsupported) := by
  have key : ∀ s, timeOfText layouts s = .ok t ↔ ∃ before p after, layouts = before ++ p :: after ∧ p s = some t ∧ ∀ q ∈ before, q s = none := by
    intro s
    induction layouts with
    | nil => simp [timeOfText]
    | cons p ps ih =>
      simp only [timeOfText]
      cases hp : p s with
      | some t' =>
        constructor
        · intro h; cases h; exact ⟨[], p, ps, rfl, hp, by simp⟩
        · rintro ⟨b, q, a, he, hq, hb⟩
          cases b with
          | nil => cases he; rw [hp] at hq; cases hq; rfl
          | cons x b => cases he; rw [hb p (by simp)] at hp; cases hp
      | none =>
        simp only
        rw [ih]
        constructor
        · rintro ⟨b, q, a, rfl, hq, hb⟩
          refine ⟨p :: b, q, a, rfl, hq, fun x hx => ?_⟩
          rcases List.mem_cons.1 hx with rfl | hx
          · exact hp
          · exact hb x hx
        · rintro ⟨b, q, a, he, hq, hb⟩
          cases b with
          | nil => cases he; rw [hp] at hq; cases hq
          | cons x b => cases he; exact ⟨b, q, a, rfl, hq, fun y hy => hb y (List.mem_cons_of_mem _ hy)⟩
  refine ⟨fun s path => ?_, fun id kvs path => ?_, fun v path h1 h2 => ?_⟩
  · cases path with
    | nil => simp only [J.getTime, key, true_and]
    | cons k ks => simp [J.getTime]
  · have hg := fun w => get_ok_iff id kvs path w
    simp only [J.get] at hg
    simp only [J.getTime]
    cases h : dictGet smGet id kvs path with
    | ok o =>
      have ho := (hg o).1 h
      have hu : ∀ w, Walks (.dict id kvs) path w → w = o := by
        intro w hw
        have := (hg w).2 hw
        rw [h] at this; cases this; rfl
      cases o with
      | str s =>
        exact ⟨fun ht => ⟨s, ho, ht⟩, fun ⟨s', hw, ht⟩ => by cases hu _ hw; exact ht⟩
      | _ => exact ⟨fun ht => by (first | cases ht), fun ⟨s', hw, ht⟩ => by cases hu _ hw⟩
    | _ =>
      refine ⟨fun ht => (by cases ht), fun ⟨s, hw, _⟩ => ?_⟩
      rw [(hg _).2 hw] at h; cases h
  · cases v with
    | str s => exact absurd rfl (h1 s)
    | dict id kvs => exact absurd trivial h2
    | _ => rfl

example : (J.dict 0 [(b!"t", .str b!"5")]).getTime [fun _ => none, parseInt, fun _ => some 7] [b!"t"] = .ok 5 := rfl

end Jsonutils.Props
