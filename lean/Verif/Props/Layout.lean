import Verif.Proofs.Layout

/-!
# The layout of the texts: C76

`J.lines` (Spec/Layout) lists the lines of a document, each with its level; `lineText` puts two blanks for each level in front.
-/

namespace Jsonutils.Props

/-- **C76, one line.** `String()` of any document, whatever its keys and texts, contains no line break and no other control character. -/
theorem C76_one_line (v : J) : ∀ c ∈ v.toBytes, (0x20 : UInt8) ≤ c := toBytes_no_control v

/-- **C76, lines.** `PrettyString()` is the lines of the document one under the other; and if no key contains a line break, these are its lines:
texts cannot break a line. -/
theorem C76_lines (v : J) : v.prettyString = linesText (v.lines 0) ∧ (v.OneLineKeys → splitLines v.prettyString = (v.lines 0).map lineText) := by
  have h : v.prettyString = linesText (v.lines 0) := pretty_lines v 0
  refine ⟨h, fun hk => ?_⟩
  rw [h]
  exact splitLines_lines _ (lines_ne v 0) (lines_no_nl v 0 hk)

/-- **C76, scalars.** `PrettyString()` of anything but an array or dictionary, and of an empty one, is `String()`, up to the node id. -/
theorem C76_scalars (v : J) : ((∀ xs, v ≠ .arr xs) → ¬ (∃ i kvs, v = .dict i kvs) → v.prettyString = v.toBytes) ∧
    (J.arr []).prettyString = (J.arr []).toBytes ∧ ∀ i, (J.dict i []).prettyString = (J.dict 0 []).toBytes := by
  refine ⟨fun h1 h2 => ?_, rfl, fun _ => rfl⟩
  cases v with
  | arr xs => exact absurd rfl (h1 xs)
  | dict i kvs => exact absurd ⟨i, kvs, rfl⟩ h2
  | _ => simp [J.prettyString, J.pretty, indent]

/-- The layout of an example: {"a":[1,{}],"b":{"c":"x\ny"},"d":null} -/
example : splitLines (J.dict 0 [(b!"a", .arr [.int 1, .dict 0 []]), (b!"b", .dict 0 [(b!"c", .str b!"x\ny")]), (b!"d", .null)]).prettyString =
    [b!"{", b!"  \"a\":", b!"    [", b!"      1,", b!"      {}", b!"    ],", b!"  \"b\":", b!"    {", b!"      \"c\": \"x\\ny\"",
     b!"    },", b!"  \"d\": null", b!"}"] ∧
    (J.dict 0 [(b!"a", .arr [.int 1, .dict 0 []]), (b!"b", .dict 0 [(b!"c", .str b!"x\ny")]), (b!"d", .null)]).OneLineKeys := by
  refine ⟨by decide +kernel, ?_⟩
  simp [J.OneLineKeys, J.OneLineKeyss, J.OneLineKeysf]

/-- The restriction is needed: keys are written as they are. -/
theorem C76_key_breaks_line : splitLines (J.dict 0 [(b!"a\nb", .int 1)]).prettyString = [b!"{", b!"  \"a", b!"b\": 1", b!"}"] := by decide +kernel

end Jsonutils.Props
