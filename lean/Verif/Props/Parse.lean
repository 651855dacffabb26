import Verif.Proofs.ParseMore
import Verif.Proofs.Reread32

/-!
# Properties of parsing and printing: C01 – C13

`J` is a document, `v.toBytes` is `v.String()`, `parseStream str off` is `ParseStream`, `parse` is `Parse`.
-/

namespace Jsonutils.Props
open Rfc

/-- A document with every kind of node, used as the non-trivial instance below. -/
def sample : J :=
  .dict 0 [(b!"a\"b", .arr [.int (-7), .float (.fin false (3 * 2 ^ 51) 1022) 64, .null]), (b!"z", .dict 0 [(b!"", .str [0, 255, 92])])]

theorem sample_wf : sample.WF := by
  simp only [sample, J.WF, J.WFf, J.WFs, SMap.Sorted, InI64, i64min, i64max, GoFloat.Canonical]
  refine ⟨by decide, ⟨by omega, ?_, trivial, trivial⟩, ⟨by decide, trivial, trivial⟩, trivial⟩
  decide +kernel

theorem sample_plain : sample.Plain := by
  simp only [sample, J.Plain, J.Plainf, J.Plains, jsonPointerKey]
  decide

theorem sample_wide : sample.Wide := by
  simp [sample, J.Wide, J.FloatsSat, J.FloatsSatf, J.FloatsSats]

/-! ## C01 -/

/-- **C01.** For every document without pointers, node ids and the reserved key, `ParseStream` of its text succeeds,
consumes the whole text, and returns a document `w` that is `v` with every float replaced by the number its text
denotes (`v.reread`); if no float is 32 bit wide, `w` is `v` itself up to a float having become the integer of the same
numeric value; and without floats `w` is exactly `v`. -/
theorem C01_round_trip (v : J) (hw : v.WF) (hp : v.Plain) :
    parseStream v.toBytes 0 = .ok v.reread v.toBytes.length ∧ (v.Wide → J.Same v v.reread) ∧
    (v.NoFloat → v.reread = v) := by
  refine ⟨?_, same_reread v hw hp, reread_noFloat v hp⟩
  have hn : v.nodeIds.Nodup := by rw [(refable_of_plain v hp).2]; simp
  simpa using parseStream_toBytes v [] (Or.inr delimited_nil) hw (refable_of_plain v hp).1 hn

example : sample.WF ∧ sample.Plain ∧ sample.Wide := ⟨sample_wf, sample_plain, sample_wide⟩

/-- **C01, with references and node ids.** Documents as `Marshal` makes them from cyclic values (node ids distinct) come back as well: `reread`
changes floats to the numbers their texts denote and nothing else, except that node ids that are not positive are not written. -/
theorem C01_references (v : J) (hw : v.WF) (hr : v.Refable) (hd : v.nodeIds.Nodup) :
    parseStream v.toBytes 0 = .ok v.reread v.toBytes.length := by
  simpa using parseStream_toBytes v [] (Or.inr delimited_nil) hw hr hd

example : parse b!"{\"___jnid_\":1,\"self\":<1>}" = .ok (.dict 1 [(b!"self", .ptr 1)]) := rfl

/-- The exception is real: the float 1.0 comes back as the integer 1. -/
theorem C01_float_becomes_int :
    (J.float (.fin false (2 ^ 52) 1022) 64).reread = .int 1 := by
  have h : formatFloat (.fin false (2 ^ 52) 1022) 64 = [49] := by decide +kernel
  have h2 : floatBits 64 = 64 := rfl
  rw [J.reread, h2, h]; rfl

/-! ## C02 -/

/-- **C02.** Re-serialising a re-parsed document reproduces the text, exactly if no float in it is a negative zero. The document may have
floats of both widths, references, and (distinct) node ids. -/
theorem C02_text_fixpoint (v : J) (hw : v.WF) (hr : v.Refable) (hd : v.nodeIds.Nodup) (hn : v.Narrow) :
    ∃ w, parse v.toBytes = .ok w ∧ (w.toBytes = v.toBytes ↔ v.FloatsSat fun x _ => NotNegZero x) :=
  ⟨_, parse_toBytes v hw hr hd, toBytes_stays_iff v hw hn⟩

example : sample.FloatsSat fun x _ => NotNegZero x := by
  simp [sample, J.FloatsSat, J.FloatsSatf, J.FloatsSats, NotNegZero]

/-- The `float32` nearest to 0.1 (13421773 · 2^-27, another number than the double nearest to 0.1), in a dictionary that refers to itself. -/
def sample32 : J := .dict 1 [(b!"self", .ptr 1), (b!"x", .float (.fin false 7205759511166976 1018) 32)]

example : sample32.WF ∧ sample32.Refable ∧ sample32.nodeIds.Nodup ∧ sample32.Narrow ∧ sample32.FloatsSat fun x _ => NotNegZero x := by
  refine ⟨?_, ?_, by decide, ?_, ⟨trivial, trivial, trivial⟩⟩
  · simp only [sample32, J.WF, J.WFf, SMap.Sorted, GoFloat.Canonical]
    exact ⟨by decide, trivial, by decide +kernel, trivial⟩
  · simp only [sample32, J.Refable, J.Refablef]
    decide
  · simp only [sample32, J.Narrow, J.FloatsSat, J.FloatsSatf, GoFloat.IsSingle]
    exact ⟨trivial, fun _ => ⟨13421773, 122, by decide +kernel, by decide +kernel⟩, trivial⟩

/-- Negative zero breaks the fixpoint: "-0" is re-read as the integer 0. -/
theorem C02_negative_zero : ∃ w, parse (J.float (.fin true 0 0) 64).toBytes = .ok w ∧
    w.toBytes ≠ (J.float (.fin true 0 0) 64).toBytes := by
  have h := parse_toBytes (.float (.fin true 0 0) 64) (by simp only [J.WF, GoFloat.Canonical]; decide +kernel)
    (by simp only [J.Refable]) (by simp [J.nodeIds])
  refine ⟨_, h, ?_⟩
  have h1 : formatFloat (.fin true 0 0) 64 = [45, 48] := by decide +kernel
  have h2 : floatBits 64 = 64 := rfl
  rw [J.reread, J.toBytes, h2, h1]
  decide

/-! ## C03 -/

/-- **C03.** `String()` is an RFC 8259 JSON text, for every document (node ids allowed) without pointers whose floats
are finite. -/
theorem C03_valid_rfc8259 (v : J) (hw : v.WF) (hp : v.NoPtr) (hf : v.FiniteFloats) : IsJsonText v.toBytes := by
  obtain ⟨t, ht⟩ := print_tree v hw hp hf
  exact ⟨[], t, [], by simp [wsText, ht]⟩

example : sample.NoPtr ∧ sample.FiniteFloats := by
  simp [sample, J.NoPtr, J.NoPtrs, J.NoPtrf, J.FiniteFloats, J.FloatsSat, J.FloatsSats, J.FloatsSatf, GoFloat.Finite]

/-! ## C04 -/

/-- **C04.** Every RFC 8259 text (arbitrary whitespace, escapes, duplicate keys) parses to the document it denotes. -/
theorem C04_rfc8259_accepted (w : Ws) (t : Tree) (w' : Ws) (h : t.Ok) :
    parseStream (wsText w ++ t.text ++ wsText w') 0 = .ok t.val (wsText w ++ t.text).length ∧
    parse (wsText w ++ t.text ++ wsText w') = .ok t.val := by
  have := parseStream_rfc w t w' h
  refine ⟨this, ?_⟩
  unfold parse; rw [this]

/-- Objects keep the last value per key. -/
theorem C04_last_value_wins (ms : Members) (k : Bytes) :
    ∃ kvs, (Tree.obj ms).val = .dict 0 kvs ∧ SMap.Sorted kvs ∧ smGet kvs k = lastValue ms.entries k := by
  refine ⟨_, rfl, sorted_foldl_smAdd _ _ sorted_nil, ?_⟩
  rw [smGet_foldl_smAdd _ _ sorted_nil]
  simp [smGet]

/-- `{ "a" : [1 ,"\u00e9\n"] , "a":true}` -/
def sampleTree : Tree :=
  .obj (.more [.space] [.raw 97 (by decide) (by decide) (by decide)] [.space] [.space]
    (.arr (.more [] (.num ⟨false, [1], none, none, by simp, by simp, by simp⟩) [.space]
      (.one [] (.str [.unicode ⟨0, false⟩ ⟨0, true⟩ ⟨14, false⟩ ⟨9, false⟩, .esc .lf]) []))) [.space]
    (.one [.space] [.raw 97 (by decide) (by decide) (by decide)] [] [] .tt []))

example : sampleTree.Ok := by
  refine ⟨⟨?_, ?_, ?_, ?_⟩, ?_, ?_, ?_⟩
  · intro i hi; simp at hi; subst hi; trivial
  · decide
  · intro e he; cases he
  · intro i hi
    simp at hi
    rcases hi with rfl | rfl
    · show ¬ _; unfold isSurrogate; decide
    · trivial
  · intro i hi; simp at hi; subst hi; trivial
  · decide
  · trivial

/-! ## C05 -/

/-- **C05.** `ParseStream` terminates on every input and offset, and reports an in-range offset. -/
theorem C05_terminates_in_range (str : Bytes) (offset : Nat) :
    parseStream str offset ≠ .diverge ∧
    (∀ v off, parseStream str offset = .ok v off → offset < off ∧ off ≤ str.length) ∧
    (∀ e off, offset ≤ str.length → parseStream str offset = .err e off → offset ≤ off ∧ off ≤ str.length) :=
  ⟨parseStream_ne_diverge str offset, fun _ _ h => parseStream_ok_bounds h, fun _ _ h0 h => parseStream_err_bounds h0 h⟩

example : ∃ v, parseStream b!" [1,2] x" 0 = .ok v 6 := ⟨_, rfl⟩

/-! ## C06 -/

/-- C06, byte level (the exact statement is `C06_panics_iff` in `Props/Lenient`): whenever `ParseStream` panics, the text has
an empty value position, or it spells the reserved key. -/
theorem C06_panic_causes (str : Bytes) (offset : Nat) (p : PPanic) (h : parseStream str offset = .panic p) :
    (p = .index → EmptyValueFirst (str.drop offset) ∨ EmptyValueInside str) ∧ (p ≠ .index → SpellsReserved str) :=
  parseStream_panic h

/-- Byte-level form: a text without backslashes, without the reserved key as substring and without an empty value
position never makes `Parse` panic. -/
theorem C06_no_panic (str : Bytes) (h1 : (92 : UInt8) ∉ str) (h2 : ¬ jsonPointerKey <:+: str)
    (h3 : ¬ EmptyValueFirst str) (h4 : ¬ EmptyValueInside str) : ∀ p, parse str ≠ .panic p := by
  intro p h
  have hp : parseStream str 0 = .panic p := by
    unfold parse at h
    split at h <;> simp_all
  obtain ⟨a, b⟩ := parseStream_panic hp
  by_cases hi : p = .index
  · rcases a hi with h | h
    · exact h3 (by simpa using h)
    · exact h4 h
  · exact h2 (spells_literal h1 (b hi))

/-- Witnesses: each of the three causes does panic. -/
theorem C06_panics :
    parse b!"{\"a\":}" = .panic .index ∧ parse b!"[1,,2]" = .panic .index ∧ parse b!"}" = .panic .index ∧
    parse b!"{\"___jnid_\":true}" = .panic .typeAssert ∧
    parse b!"[{\"___jnid_\":1},{\"___jnid_\":1}]" = .panic .dupNode := by
  refine ⟨rfl, rfl, rfl, rfl, rfl⟩

/-! ## C07 -/

/-- **C07.** Every parsed document is well formed at every depth: sorted unique keys, int64 integers, canonical floats;
no reserved key is left among the entries, node ids fit int64 and are pairwise distinct. -/
theorem C07_parsed_well_formed (str : Bytes) (v : J) (h : parse str = .ok v) :
    v.WF ∧ v.Refable ∧ v.nodeIds.Nodup := by
  obtain ⟨off, h⟩ := parse_ok_stream h
  have := parseStream_parsed h
  exact ⟨this.wf, this.ref, this.nodup⟩

/-- Consequently the text of a parsed document (whatever text it came from) can always be parsed again. -/
theorem C07_reparse (str : Bytes) (v : J) (h : parse str = .ok v) : parse v.toBytes = .ok v.reread := by
  obtain ⟨h1, h2, h3⟩ := C07_parsed_well_formed str v h
  exact parse_toBytes v h1 h2 h3

example : ∃ v, parse b!"{b:1,a:[{\"___jnid_\":3,x:<3>}]}" = .ok v := ⟨_, rfl⟩

/-! ## C08 -/

/-- **C08.** A run of whitespace in front changes nothing but the offset. -/
theorem C08_leading_whitespace (w : Ws) (t : Bytes) :
    parseStream (wsText w ++ t) 0 = (parseStream t 0).shift (wsText w).length ∧ parse (wsText w ++ t) = parse t := by
  have h := parseStream_shift (wsText w) t [] (by simp [skipEmpty_wsText]) (by simp)
  simp only [List.length_nil] at h
  refine ⟨h, ?_⟩
  unfold parse
  rw [h]
  cases parseStream t 0 <;> rfl

/-- Bytes before the start offset are never read. -/
theorem C08_prefix_not_read (p t : Bytes) : parseStream (p ++ t) p.length = (parseStream t 0).shift p.length :=
  parseStream_shift p t p (by simp) (Nat.le_refl _)

/-! ## C09 -/

/-- **C09.** Serialisation is injective: equal texts mean equal documents, up to the float/integer identification. -/
theorem C09_injective (v w : J) (hv : v.WF) (hw : w.WF) (hpv : v.Plain) (hpw : w.Plain) (h : v.toBytes = w.toBytes) :
    v.reread = w.reread ∧ (v.Wide → w.Wide → ∃ u, J.Same v u ∧ J.Same w u) ∧ (v.NoFloat → w.NoFloat → v = w) := by
  have h1 := (C01_round_trip v hv hpv).1
  have h2 := (C01_round_trip w hw hpw).1
  rw [h, h2] at h1
  simp only [SR.ok.injEq, and_true] at h1
  refine ⟨h1.symm, fun a b => ⟨v.reread, same_reread v hv hpv a, h1 ▸ same_reread w hw hpw b⟩, fun a b => ?_⟩
  rw [← reread_noFloat v hpv a, ← reread_noFloat w hpw b, h1]

/-- Conversely documents that read back the same have the same text (floats of both widths, no negative zero). -/
theorem C09_canonical (v w : J) (hv : v.WF) (hw : w.WF) (hbv : v.Narrow) (hbw : w.Narrow)
    (hzv : v.FloatsSat fun x _ => NotNegZero x) (hzw : w.FloatsSat fun x _ => NotNegZero x)
    (h : v.reread = w.reread) : v.toBytes = w.toBytes := by
  rw [← toBytes_stays v hv hbv hzv, ← toBytes_stays w hw hbw hzw, h]

/-- With references and (distinct) node ids: the texts are equal if and only if the documents are, up to the numbers their floats denote. -/
theorem C09_iff (v w : J) (hv : v.WF) (hw : w.WF) (hrv : v.Refable) (hrw : w.Refable) (hdv : v.nodeIds.Nodup) (hdw : w.nodeIds.Nodup)
    (hbv : v.Narrow) (hbw : w.Narrow) (hzv : v.FloatsSat fun x _ => NotNegZero x) (hzw : w.FloatsSat fun x _ => NotNegZero x) :
    v.toBytes = w.toBytes ↔ v.reread = w.reread := by
  refine ⟨fun h => ?_, C09_canonical v w hv hw hbv hbw hzv hzw⟩
  have h1 := C01_references v hv hrv hdv
  rw [h, C01_references w hw hrw hdw] at h1
  injection h1 with h1
  exact h1.symm

/-- Dictionaries built by any two insertion sequences with the same final content are identical, so print identically,
with the keys in byte order. -/
theorem C09_insertion_order (ps qs : List (Bytes × J)) (h : ∀ k, lastValue ps k = lastValue qs k) :
    (newDict ps).toBytes = (newDict qs).toBytes ∧
    ∃ kvs, newDict ps = .dict 0 kvs ∧ (kvs.map (·.1)).Pairwise (fun a b => blt a b = true) := by
  unfold newDict
  rw [foldl_smAdd_canonical ps qs h]
  refine ⟨rfl, _, rfl, ?_⟩
  have := sorted_foldl_smAdd qs [] sorted_nil
  unfold SMap.Sorted at this
  rw [List.pairwise_map]
  exact this

example : ∀ k, lastValue [(b!"x", J.int 1), (b!"y", .null), (b!"x", .int 2)] k =
    lastValue [(b!"x", .int 2), (b!"y", .null)] k := by
  intro k
  simp only [lastValue, List.reverse_cons, List.reverse_nil, List.nil_append, List.cons_append, List.find?]
  by_cases h1 : b!"x" = k <;> by_cases h2 : b!"y" = k <;> simp [h1, h2]
  subst h1; simp at h2

/-! ## C10 -/

/-- **C10.** The text of a string is an RFC 8259 string literal meaning exactly the string; it contains no byte below
0x20 and parses back whatever follows. -/
theorem C10_quoted_strings (s rest : Bytes) :
    (∃ t : Str, (newString s).toBytes = strText t ∧ strMeaning t = s) ∧
    (∀ c ∈ (newString s).toBytes, (0x20 : UInt8) ≤ c) ∧
    parseStream ((newString s).toBytes ++ rest) 0 = .ok (.str s) (newString s).toBytes.length := by
  obtain ⟨t, h1, h2, h3⟩ := quote_meaning s
  have e : (newString s).toBytes = strText t := by rw [newString, J.toBytes, h1]
  refine ⟨⟨t, e, h2⟩, by rw [e]; exact strText_no_control t, ?_⟩
  exact parseStream_toBytes (.str s) rest (Or.inl rfl) trivial trivial (by simp [J.nodeIds])

/-! ## C11 -/

/-- **C11.** Every string literal decodes item by item; a `\uXXXX` escape becomes the UTF-8 encoding of its code point,
or U+FFFD if it is a surrogate. -/
theorem C11_string_items (s : Str) (rest : Bytes) :
    parseStream (strText s ++ rest) 0 = .ok (.str (s.flatMap StrItem.decoded)) (strText s).length :=
  parseStream_strText s rest

set_option maxRecDepth 10000 in
/-- Finding: a surrogate pair is not combined (the pair of U+1F600 gives two replacement characters). -/
theorem C11_pair_not_combined :
    parse b!"\"\\ud83d\\ude00\"" = .ok (.str [0xEF, 0xBF, 0xBD, 0xEF, 0xBF, 0xBD]) ∧
    String.utf8EncodeChar (Char.ofNat 0x1F600) ≠ [0xEF, 0xBF, 0xBD, 0xEF, 0xBF, 0xBD] := by
  exact ⟨rfl, by decide⟩

/-! ## C12 -/

/-- **C12.** `PrettyString` denotes the same document as `String` if no key contains a quote or a backslash. -/
theorem C12_pretty (v : J) (hw : v.WF) (hp : v.Plain) (hk : v.RawKeys) :
    parseStream v.prettyString 0 = .ok v.reread v.prettyString.length ∧ parse v.prettyString = parse v.toBytes := by
  have h1 := parse_pretty v hw (refable_of_plain v hp).1 hk
  rw [unlabel_plain v hp] at h1
  have h2 := (C01_round_trip v hw hp).1
  refine ⟨h1, ?_⟩
  unfold parse
  rw [h1, h2]

example : (J.dict 0 [(b!"k", .arr [.int 1, .dict 0 []])]).RawKeys := by
  simp [J.RawKeys, J.RawKeyss, J.RawKeysf, RawKey]

/-- **C12, FALSE for documents with references.** The references are written as by `String`, but the node ids are not: what is read back
is the document without the ids, with references to nothing. -/
theorem C12_references (v : J) (hw : v.WF) (hr : v.Refable) (hk : v.RawKeys) : parse v.prettyString = .ok v.unlabel.reread := by
  unfold parse
  rw [parse_pretty v hw hr hk]

example : parse (J.dict 1 [(b!"next", .ptr 1)]).prettyString = .ok (.dict 0 [(b!"next", .ptr 1)]) ∧
    parse (J.dict 1 [(b!"next", .ptr 1)]).toBytes = .ok (.dict 1 [(b!"next", .ptr 1)]) :=
  ⟨rfl, rfl⟩

/-- The restriction is needed: keys are not escaped. -/
theorem C12_unescaped_key :
    parse (J.dict 0 [(b!"a\"b", .int 1)]).prettyString = .err .noColon ∧
    parse (J.dict 0 [(b!"a\"b", .int 1)]).toBytes = .ok (.dict 0 [(b!"a\"b", .int 1)]) := by
  exact ⟨rfl, rfl⟩

/-! ## C13 -/

/-- **C13.** A concatenation of serialised arrays/dictionaries separated by junk without `[` and `{` is split into
exactly those documents, in order. -/
theorem C13_stream_of_documents (items : List (Bytes × J)) (tail : Bytes)
    (hdocs : ∀ it ∈ items, it.2.isDictOrArr = true ∧ it.2.WF ∧ it.2.Refable ∧ it.2.nodeIds.Nodup)
    (hsep : ∀ it ∈ items, ∀ c ∈ it.1, c ≠ 91 ∧ c ≠ 123) (htail : ∀ c ∈ tail, c ≠ 91 ∧ c ≠ 123) :
    parseJsonStreams (items.flatMap (fun it => it.1 ++ it.2.toBytes) ++ tail) =
      .ok (items.map fun it => it.2.reread) :=
  parseJsonStreams_concat items tail hdocs hsep htail

/-- What the call returns on an arbitrary stream (outside `Parse` panics): the documents met by the scan, in order;
failures only matter if no document at all was met, and then their number is reported. -/
theorem C13_scan (stream : Bytes) :
    (∀ docs, parseJsonStreams stream = .ok docs ↔ ∃ n, Scan stream docs n ∧ (docs ≠ [] ∨ n = 0)) ∧
    (∀ n, parseJsonStreams stream = .err n ↔ Scan stream [] n ∧ 0 < n) :=
  parseJsonStreams_scan stream

example : parseJsonStreams b!"{1 x[2] " = .ok [.arr [.int 2]] ∧ parseJsonStreams b!"{1 {1 " = .err 2 := ⟨rfl, rfl⟩

theorem C13_terminates (stream : Bytes) : parseJsonStreams stream ≠ .diverge := fun h =>
  streamsLoop_terminates _ stream [] 0 (by omega) h

example : parseJsonStreams b!"log: {\"a\":1} ; [2]\n" = .ok [.dict 0 [(b!"a", .int 1)], .arr [.int 2]] := rfl

end Jsonutils.Props
