import Verif.Proofs.LenientComplete
import Verif.Props.Parse

/-!
# C06 and C52: exactly which texts `Parse` accepts, with which meaning, and on which it panics
-/

namespace Jsonutils.Props
open Jsonutils Jsonutils.Lenient

/-! ## C52 -/

/-- **C52.** `Parse` returns the document `v` exactly on the texts that, behind blanks, start with a text of `v` in the lenient
grammar in which no node id is declared twice.  What follows that text is ignored. -/
theorem C52_accepts (str : Bytes) (v : J) :
    parse str = .ok v ↔ ∃ w u ids r, str = w ++ u ∧ Blanks w ∧ Value u v ids r ∧ ids.Nodup := by
  have e : parse str = .ok v ↔ ∃ off, parseStream str 0 = .ok v off := by
    unfold parse
    cases parseStream str 0 <;> simp
  rw [e]
  constructor
  · rintro ⟨off, h⟩
    obtain ⟨w, u, ids, r, h1, h2, h3, h4, _⟩ := (stream_ok_iff _ _ _ _).1 h
    exact ⟨w, u, ids, r, by simpa using h1, h2, h3, h4⟩
  · rintro ⟨w, u, ids, r, h1, h2, h3, h4⟩
    exact ⟨_, (stream_ok_iff _ _ _ _).2 ⟨w, u, ids, r, by simpa using h1, h2, h3, h4, rfl⟩⟩

/-- The same for `ParseStream`, which also returns the position behind the text. -/
theorem C52_stream (str : Bytes) (offset : Nat) (v : J) (off : Nat) :
    parseStream str offset = .ok v off ↔
      ∃ w u ids r, str.drop offset = w ++ u ∧ Blanks w ∧ Value u v ids r ∧ ids.Nodup ∧ off = str.length - r.length :=
  stream_ok_iff str offset v off

/-- The meaning and the end of a text are unique: the grammar is unambiguous (where no node id is declared twice). -/
theorem C52_unambiguous (u : Bytes) (v v' : J) (ids ids' : List Int) (r r' : Bytes) (h : Value u v ids r) (hn : ids.Nodup)
    (h' : Value u v' ids' r') (hn' : ids'.Nodup) : v = v' ∧ r = r' := by
  have hb : Blanks [] := by intro c hc; cases hc
  have h1 := (C52_stream u 0 v _).2 ⟨[], u, ids, r, rfl, hb, h, hn, rfl⟩
  have h2 := (C52_stream u 0 v' _).2 ⟨[], u, ids', r', rfl, hb, h', hn', rfl⟩
  obtain ⟨s, ⟨_, f, hf⟩, _⟩ := (value_complete h {} (by simp)).1 (by simpa using hn)
  obtain ⟨s', ⟨_, f', hf'⟩, _⟩ := (value_complete h' {} (by simp)).1 (by simpa using hn')
  have e1 := val_le (by simp) hf (Nat.le_max_left f f')
  have e2 := val_le (by simp) hf' (Nat.le_max_right f f')
  rw [e1] at e2
  cases e2
  exact ⟨rfl, rfl⟩

/-- Some of the liberties: a missing closing quote or bracket at the end, a comma before the bracket, bare words, single
quotes, text behind the document, an empty bare key. -/
theorem C52_liberties :
    parse b!"\"abc" = .ok (.str b!"abc") ∧ parse b!"{" = .ok (.dict 0 []) ∧ parse b!"[1," = .ok (.arr [.int 1]) ∧
    parse b!"[1,]" = .ok (.arr [.int 1]) ∧ parse b!"{a:yes,'b':No}" = .ok (.dict 0 [(b!"a", .bool true), (b!"b", .bool false)]) ∧
    parse b!"1 2 3" = .ok (.int 1) ∧ parse b!"[1]]garbage" = .ok (.arr [.int 1]) ∧
    parse b!"{:1}" = .ok (.dict 0 [(b!"", .int 1)]) := by
  refine ⟨rfl, rfl, rfl, rfl, rfl, rfl, rfl, rfl⟩

/-- A missing bracket behind a value is an error, a `\u` escape at the very end too. -/
theorem C52_no_liberties :
    parse b!"[1" = .err .truncated ∧ parse b!"{a:1" = .err .truncated ∧ parse b!"[ " = .err .truncated ∧
    parse b!"\"\\u0041" = .err .incompleteUnicode ∧ parse b!"<x>" = .err .invalidNodeId ∧ parse b!"{a,1}" = .err .noColon := by
  refine ⟨rfl, rfl, rfl, rfl, rfl, rfl⟩

/-- A derivation in the grammar, written out. -/
example : Value b!"[x, 'a\\x41']" (.arr [.str b!"x", .str b!"aA"]) [] [] := by
  have hb : Blanks [] := by intro c hc; cases hc
  have hs : Blanks [32] := by intro c hc; simp at hc; exact Or.inl hc
  have h1 : Value (b!"x" ++ b!", 'a\\x41']") (.str b!"x") [] ([] ++ 44 :: b!" 'a\\x41']") := by
    refine .word (w := b!"x") (by decide) ?_ ?_ ?_ ?_ ?_
    · intro c hc; simp at hc; subst hc; unfold Delim Blank; decide
    · intro c hc; cases hc; unfold Delim Blank; decide
    · intro c hc; cases hc; unfold Quote; decide
    · intro d hd; cases hd
    · refine .str ?_ (Numeral.parseInt_none.1 rfl) (Numeral.parseFloat_none.1 rfl)
      intro j hj
      cases hj with
      | null h => revert h; decide
      | true h => revert h; decide
      | false h => revert h; decide
  have h2 : Value b!"'a\\x41']" (.str b!"aA") [] ([] ++ 93 :: []) := by
    refine .text (Or.inr rfl) ?_
    refine .raw (by decide) (by decide) ?_
    exact Quoted.hex (q := 39) (a := ⟨4, false⟩) (b := ⟨1, false⟩) (t := b!"']") (by decide) .close
  have h3 : Elements b!"x, 'a\\x41']" [.str b!"x", .str b!"aA"] ([] ++ []) [] :=
    .more (w := []) (u := b!"x, 'a\\x41']") hb h1 hb (.last (w := [32]) (u := b!"'a\\x41']") hs h2 hb)
  exact .array h3

/-! ## C06 -/

/-- **C06.** `Parse` panics exactly if, reading from the left, a value is expected where `,` `:` `]` or `}` stands (index out of
range), or a reserved member is given a value that is not an integer (failed type assertion), or a node id is declared a second
time (explicit panic). -/
theorem C06_panics_iff (str : Bytes) :
    (parse str = .panic .index ↔ NoValue str) ∧ (parse str = .panic .typeAssert ↔ BadNodeId str) ∧
    (parse str = .panic .dupNode ↔ SameNodeId str) := by
  have e : ∀ p, parse str = .panic p ↔ Cause str p := by
    intro p
    have h := stream_panic_iff str 0 p
    rw [List.drop_zero] at h
    rw [← h]
    unfold parse
    cases parseStream str 0 <;> simp
  exact ⟨e .index, e .typeAssert, e .dupNode⟩

/-- In every other case `Parse` returns: a document if the text is in the grammar, an error if not. -/
theorem C06_outcomes (str : Bytes) :
    (∃ v, parse str = .ok v) ∨ (∃ e, parse str = .err e) ∨ NoValue str ∨ BadNodeId str ∨ SameNodeId str := by
  obtain ⟨h1, h2, h3⟩ := C06_panics_iff str
  cases h : parse str with
  | ok v => exact Or.inl ⟨v, rfl⟩
  | err e => exact Or.inr (Or.inl ⟨e, rfl⟩)
  | panic p =>
    refine Or.inr (Or.inr ?_)
    cases p with
    | index => exact Or.inl (h1.1 h)
    | typeAssert => exact Or.inr (Or.inl (h2.1 h))
    | dupNode => exact Or.inr (Or.inr (h3.1 h))
  | diverge =>
    have := C05_terminates_in_range str 0
    unfold parse at h
    split at h <;> simp_all

example : NoValue b!"{\"a\":[1,{b:2},]}" ↔ False := by
  rw [← (C06_panics_iff _).1]
  constructor
  · intro h; exact absurd h (by intro h; cases h)
  · exact False.elim

example : NoValue b!"{\"a\":[1,{b:}]}" := (C06_panics_iff _).1.1 rfl
example : BadNodeId b!"[{___jnid_:x}]" := (C06_panics_iff _).2.1.1 rfl
example : SameNodeId b!"[{___jnid_:7},{a:{___jnid_:7}}" := (C06_panics_iff _).2.2.1 rfl

end Jsonutils.Props
