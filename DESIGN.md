# Formal model of yunionio/jsonutils in Lean 4 — design

Layout (all under `lean/Verif`):

* `Model/*`  — executable model, one definition per Go function, each citing file:lines of /repo.
* `Spec/*`   — small independent specifications (RFC 8259 grammar, abstract map, ...), not using the model.
* `Proofs/*` — lemmas.
* `Props/*`  — the property theorems `Cnn_*` with their non-vacuity examples, and nothing else.

## Trusted base

* Lean 4.33.0's kernel; axioms at most `propext`, `Classical.choice`, `Quot.sound` (per theorem list: see end of this file).
* The reading of /repo into `Model/*` (the code is never run here).
* Go semantics assumed: 64-bit `int`; `string` = byte sequence, compared bytewise; map iteration order arbitrary.
* External packages (source not available, documented behaviour modelled):
  * `yunion.io/x/pkg/sortedmap`: a slice of (key,value) kept strictly increasing by key (Add = insert or
    replace, Delete, Get, Keys, Merge = right-biased union, Split = two-way partition). `*IgnoreCase` = first
    entry in key order whose case-folded key matches; the folding function is a parameter.
  * `strconv.ParseInt/FormatInt/ParseFloat/FormatFloat`: modelled concretely (IEEE-754 binary64/32 with exact
    rational rounding).
  * The currency regular expressions (`regutils.MatchUSCurrency/MatchEUCurrency`) are predicates assumed (hypotheses of
    C37) to accept `[+-]?(\d{0,3}|((\d{1,3},)+\d{3}))(\.\d*)?` and its mirror image, as `Spec/Currency` states them.
  * `unicode/utf8.EncodeRune`, `net/url.QueryEscape/ParseQuery` (Go 1.18 behaviour: `;` is an error), `strings.*`: modelled concretely.
  * `yunion.io/x/pkg/util/reflectutils`, `gotypes`, `timeutils`, `regutils`, `tristate`, YAML library: the part the
    code depends on becomes a parameter (struct field descriptors, regex predicates, parsing of times in C50/C66, the YAML library in C75).

## Modelled / not modelled

Modelled: parsing, printing, pretty printing, accessors, dictionary operations, copy, equality, query strings,
segments, error excerpts, utilities, currency, marshal/unmarshal over a typed universe of Go values, pointer trace,
parse/marshal/unmarshal sessions, locales table.
Not modelled: the YAML library itself (a parameter of C75), logging, stack exhaustion on deep nesting, memory limits, data-race semantics below
the level of single field reads/writes.

File by file (tools/coverage.py, from the citations in the model). The functions in the last column are either one-line constructors,
getters and debugging output (`newJsonPointerTrace`, `push`, `setNodeId`, `Value`, `Len`, `isCompond`, the `String` of a trace) or wrappers
inlined where they are called (`DeepCopy` of a kind calls `deepCopy`; `MarshalAll` is `Marshal` with one flag, the parameter `oe`;
`marshalStruct` is `structDict` in `GV.mar`; `strings2stringSegments` is a `map`). `NewTimeString` formats a time and is not modelled.

<!-- coverage -->
| file | functions | modules (most lines first) | functions with no citation of their own |
|---|---|---|---|
| access.go | 60 | Access, HeapAccess, HeapRead, Live, Heap, Spec/Owner, Value, Marshal, SortedMap, Strconv | - |
| clone.go | 11 | Dict, Heap, HeapDict | DeepCopy |
| compond.go | 3 | - | isCompond |
| consts.go | 0 | - | - |
| currency.go | 3 | Currency | - |
| dict.go | 3 | Dict, HeapDict, Heap, SortedMap | - |
| equals.go | 7 | Dict, HeapRead, Live, SortedMap | - |
| errors.go | 2 | Error, Locales | - |
| interface.go | 7 | Access, HeapRead, Live | - |
| iszero.go | 7 | Access, HeapAccess | - |
| json_pointer_trace.go | 6 | Marshal | String, newJsonPointerTrace, push |
| jsonpointer.go | 31 | Access, Live, HeapAccess, HeapRead, Print, Marshal, Query, Unmarshal, Value, Heap, Dict, SharedData, UnmarshalHeap, UnmarshalSession, Strconv | newJsonPointer, setNodeId |
| jsonutils.go | 34 | Parse, Lex, Spec/Owner, Print, HeapRead, Heap, Value, Unmarshal, SharedMarshal, Strconv, SortedMap | - |
| length.go | 3 | Access, HeapAccess | - |
| locales/locales.go | 2 | Locales | - |
| marshal.go | 20 | Marshal, SharedMarshal, Deprecated, MarshalMap, Live, HookMarshal, Strconv | MarshalAll, marshalStruct |
| marshal_session.go | 1 | Marshal | - |
| parse_session.go | 3 | Parse, Lex | newJsonParseSession |
| querystring.go | 14 | Query, HeapAccess, Url, Segments | - |
| reflect.go | 2 | Deserialize | - |
| size.go | 2 | HeapAccess, Shortcuts | - |
| std_json.go | 6 | Hooks, SharedData, Unmarshal, UnmarshalHeap, HookMarshal, Marshal | IsImplementStdUnmarshaler |
| string.go | 7 | HeapRead, Print, SharedText, FloatRace, Heap, Strconv | - |
| stringsegment.go | 10 | Segments, Strconv | Len, stringSegments2Strings, strings2stringSegments |
| unmarshal.go | 22 | Unmarshal, SharedData, UnmarshalHeap, Hooks, Embedded, Deprecated, UnmarshalSession, Strconv | - |
| unmarshal_session.go | 3 | UnmarshalSession, UnmarshalHeap | - |
| update.go | 1 | Unmarshal | - |
| utils.go | 10 | Dict, Shortcuts, Access | NewTimeString |
| values.go | 6 | Shortcuts | Value |
| write.go | 7 | SharedText, HeapRead, Print, Strconv | - |
| yamlutils.go | 9 | Yaml | - |
<!-- /coverage -->

## Plan per property

Numbers refer to `properties.jsonl`.

* C01 round trip: fuel-based parser on the remaining input; mutual induction over documents proving
  `parse (print v ++ rest) = norm v, rest` for every delimiter-led rest.
* C02 fixpoint: from C01 plus `print (norm v) = print v`.
* C03 grammar: RFC 8259 as inductive relations in `Spec/Rfc8259`; mutual induction over documents.
* C04 completeness: induction over grammar derivations.
* C05 termination/offset: fuel = twice the input length + 2 never runs out; the remaining input of a success is a strict suffix.
* C06 panics: positions a left-to-right reading arrives at (`Spec/Lenient`, `Reach`); exact characterisation of each kind of panic, both directions: by induction on fuel with the position carried along, and by induction on `Reach` using completeness of the grammar.
* C07 well-formedness: induction over the parser.
* C08 whitespace: `skipEmpty` lemma lifted to ParseStream.
* C09 injectivity: from C01; insertion-order independence from the map refinement.
* C10, C11 string lexing: induction over byte strings; code-unit case analysis.
* C12 pretty: same induction as C01 over the pretty printer; witness for unescaped keys.
* C13 streams: C01 for compound documents plus progress of the scanning loop.
* C14 map refinement: abstraction to `Key → Option Val`, induction over histories.
* C15 path laws: induction over paths.
* C16–C21 dictionary algebra: from the map refinement; Equals by mutual induction.
* C22 DeepCopy: value level plus a heap model (addresses → nodes) with freshness/isolation by induction.
* C23–C26 accessors: case analysis, strconv round trip lemmas.
* C27–C30 query strings: url escaping by byte table, order laws, insertion of sorted leaf paths rebuilds the tree.
* C31 error excerpt: index arithmetic. C32, C33: mutual induction.
* C34–C37 utilities: induction over lists; termination by counting keys.
* C38–C40 marshal/unmarshal: typed universe, mutual induction over types.
* C41, C42 deprecated tags: functional graph; fuel witnesses for non-termination; visited set for termination.
* C43 cycles: marshal over a finite heap, measure = pointers not on the active path; trace invariant.
* C44 unmarshal session: state machine, induction over event lists.
* C45 concurrency: interleaving semantics of the width-field reads/writes, invariant over all schedules.
* C46 root scalar unmarshal: method-promotion modelled explicitly; witness.
* C47 locales: whole finite table by kernel evaluation.
* C48, C49 query strings as sets of pairs, nested keys: order and duplicate laws of `Model/Query`.
* C50 accessors on non-dictionaries: case analysis. C51 sharing after shallow operations: heap model of C22.
* C52 accepted language: inductive grammar with meanings (`Spec/Lenient`), sound by induction on fuel, complete by induction on derivations; unambiguity follows.
* C53 structs: frame lemma over `setStructFieldAt`'s recursion (induction on fuel; fuel = number of fields + 2 suffices by the
  visited set), then over the keys. C54, C56: induction over elements and entries against a relational description.
* C55 Marshal well-formed, deterministic: induction over the unfolded value.
* C57 types/panics: one mutual induction over documents, with the typing judgement as invariant.
* C58 conversions: case analysis, arithmetic of `SetInt`. C59 Update: C40's dictionary fed to C53.
* C60 idempotence: mutual induction over documents on top of C53, C54, C56.
* C61 references: `Unmarshal` over an explicit memory with the session in the state (`Model/UnmarshalHeap`); mutual induction over documents;
  invariant: every id unknown, known, or waited for; new objects only at the end of memory.
* C62 object graphs: `MarshalAll`/`Marshal` of a typed pointer graph, read back by C61: the document describes the graph (mutual
  induction over the run of `Marshal`, fuel for dereferences), what `Unmarshal` builds is as the document says, and the two compose to a
  bisimulation between the graph and the new memory.
* C63 targets that are not zero: the memory model refines the value model; mutual induction over documents, invariant: the value at a location
  with its list of objects, no object twice; frame conditions on every step. C64: the set of reachable and new objects is closed.
* C65: `Model/Live` gives references their dictionary; `Mirrors` is a bisimulation between document and memory, found by relating each
  part of the output to the value it was made from; `Interface` diverges because every dictionary that is referred to has a reference inside.
* C66, C67: `Model/Hooks` runs `Unmarshal` with user methods as parameters (`UnmarshalJSON`, `AfterUnmarshal`, parsing of times: arbitrary
  functions); mutual induction over documents: without methods it is the model without hooks, and an invariant is carried through.
* C68: percent decoding and parameters as inductive relations; the map of values by its lookup function; results by induction over segments.

* C69 floats: nearest-even and shortest-decimal as separate specifications (`Spec/Float`, denominators multiplied out); the rounding function is shown
  to satisfy the first by bracketing the exponent, uniqueness makes it an equivalence; the numbers rounding to one double form an interval, hence the
  search for the shortest decimal, from the left, is right.

- **C70** `Model/HookMarshal` adds `MarshalJSON` to the tree that `Marshal` sees; the round trip of C38 is proved again for `unmH`, with the user's methods as parameters; the hypothesis on them is per value (`Codec.Agree`).
- **C71** `Spec/Numeral` is a grammar of numerals; `Proofs/Numeral*` show that the model of strconv's ParseFloat accepts exactly these (first without underscores, then that underscores are skipped exactly where they may stand). The grammar of C52 now uses it instead of the model of strconv.
- **C72** `Model/MarshalMap` adds map keys of any kind and arbitrary listing order in front of `Model/Marshal`: keys are sorted by any function that satisfies the contract of `sort.Sort`. Uniqueness of sorted lists without ties gives the order theorem; for acyclic values, permuted entry lists marshal to permuted pairs (`Proofs/MarshalShuffle`).

* C73 JSONDeserialize: case analysis on the outcome of Parse, via C52 (language), C06 (panics), C07 (well-formedness) and C01.
* C74 concurrent String on shared documents: small-step machine over the heap model; invariant "from here the rest of my work writes the rest of my text", stable under the settling of widths by others; the same invariant carries the step bound.

* C75 YAML: the library is a parameter; its contract is per text (`YamlLib.Keeps`); from C01 and C04.
* C76 layout: the pretty printer is compared with a list of levelled lines, by mutual induction on the document.

* C77 nil and cycles: readers on the heap with fuel and a panic outcome; one bare traversal gives the outcome of all of them (induction on fuel, on acyclicity, on the document), values by induction on the document.

* C78 dictionaries from dictionaries: `Diff`, `CopyIncludes`, `UpdateDefault` on the heap; the loop invariant of `Diff` says what each of the new dictionaries holds, `Equals` is unaffected by later allocations (induction on fuel).
- **C79** (`Props/HeapEdit`): occurrences of an object in a document (`Way`), the document with an object replaced wherever it occurs (`Edited`); by induction on the document for any call that writes one object; `Add` by induction on the path: it writes one existing dictionary and fresh ones.
- **C80** (`Props/HeapOrder`): one invariant (`InOrder`, optionally without cycles) preserved by every call; histories by induction. `Call.Legal` says that the arguments exist, `Call.Untied` that nothing is put into itself; the invariant gives `Heap.Ok`, `Tidy`, and a document at every address.
- **C81** (`Props/SharedData`): `Unmarshal` on memory (`Model/SharedData`): the variable holds references, the memory is threaded through. Content by simulation with the value-level `Unmarshal` model (for any keys if the struct type has no parts that conversions write to, `Proofs/SharedFirm`); sharing by a relation between positions of the document (`Way`) and places in the variable (`Spot`); the frame by an invariant on the set of writable objects.
- **C82** (`Props/SharedMarshal`): `Marshal` on memory (`Model/SharedMarshal`), the variables of C81. Content by simulation with the tree of `Model/Marshal`; sharing by induction on a relation between places of documents in the variable and positions of the result (`DV.Put`); freshness by exhibiting the set of new objects of the result and what they hold.
- **C83** (`Props/Nested`): invariant of the loop over the sorted keys: the leaves of the tree so far are the keys so far that no other key blocks. Insertion as a function on trees (`J.putQ`), shown to be what the code does.
- **C84** (`Props/Size`): sizes by induction over the grammar of C52 (`Spec/Lenient`), not over the parser; text lengths by induction over documents, the float bound from the shortest-decimal specification of C27 (spacing of the doubles); Marshal on a ladder of shared pointers by induction on its length.
- **C85** (`Props/Owner`): simulation between a machine on memory (`Model/Heap`, `Model/HeapRead`) and a machine on values (`Model/Access`, `Model/Dict`); the invariant gives each variable its own set of objects, pairwise disjoint, each variable's set spelling its document as a tree (separation-logic style footprints, `Proofs/Owner`).
- **C86** (`Props/HeapAccess`): the readers of `Model/Access` and `Model/Query` written again on memory (`Model/HeapAccess`), with fuel where the Go code recurses; refinement by induction on the spelled document, panics from the `Leads` relation of C77, `QueryString` by the traversal lemmas of C77.
- **C28, exactly** (`Props/QueryExact`): adding the scalars of a document one by one acts on each container as the fold of its children's own scalars; a scalar whose index is ahead of the array is dropped, so a count of scalars shows that the document cannot come back; conversely the order conditions make every index arrive in time.
- **C40 at every depth** (`Props/Within`): a relation `J.Within` on documents (members and elements left out), by induction over the unfolded value; the deprecated keys follow the keys they stand for.
- **C38/C59 with the option string**: `UEnv.RoundTripsQ` allows `,string` on booleans, texts, signed integers and unsigned integers below 64 bits; the quoted text is read back by the same routine a text from a client goes through (`quote_back`). Floats and slices with the option do not come back (`C38_float_string`, `C38_slice_string`), nor 64-bit unsigned integers from 2^63 on (`C38_big_uint_string`).

- C02/C09 for 32-bit floats: the last digit of the shortest decimal of a float32 is worth at least 1/40 of its unit in the last place, far more than
  the unit of the nearest double, so that double has the same shortest decimal (`Proofs/Float32.lean`), and re-reading keeps the text.
- **C87** (`Props/SharedCopy`): C82 followed by C81 on the memory that results, with C38 for the content; places of documents (`DV.Put`) are routes of the type because reflectutils finds each field by its key. Independence: an invariant of the memory `Unmarshal` (`Proofs/SharedRefs`: what a variable can hold), C22's copy, and the history lemma of C22.
- **C88** (`Props/IfaceTrip`): the Go value of `Interface()` as a value of C72 (maps in any order); induction on the document for the marshalling walk, C72 for the order, C32 for `Equals`.
- **C89** (`Model/Embedded`, `Props/Embedded`): the fields together with the set of embedded pointers that are not nil; a simulation with the flat model, an invariant of each step, and for completeness the closure of the visited keys, as for a depth-first search.
- **C90** (`Spec/Aliases`, `Props/Aliases`): each call of `setStructFieldAt` writes exactly the fields of the keys visited meanwhile, each once; the visited keys are closed under the options; then induction on the dictionary.
- **C38 with deprecated fields** (`UEnv.RoundTripsD`, `Proofs/UnmarshalHeirs`): what `Marshal` writes for a chain of deprecated fields is one document under all their names; `setStructFieldAt` at any of them fills the chain from there on, so the order does not matter as long as reading a document twice is reading it once (third part of `RTst`).
- **C40, any memory** (`Proofs/WithinGraph`): `Marshal` and `MarshalAll` run side by side from the same session; the sessions stay equal step by step, so the node ids agree, and one result stays inside the other.
- **C59, deprecated fields** (`Props/UnmarshalMore`): the same walk along the chains as for C38, with arbitrary previous values; a field on a chain is written once per key that leads to it, and C60 makes all writes after the first one harmless.
- **C39/C40, empty values in cyclic memory** (`Props/Blank`): the trace of `Marshal` is a list of addresses being marshalled; the invariant is that none of them is empty for any options, and a value that is empty for some options leaves the trace as it was (strong induction on the height of the proof that it is empty, which does not depend on the options).

## Simplifications worth knowing

* Heap model (C22, C51): a sorted map or slice belongs to one object; sharing is between objects.
* `Marshal` (C38–C43, C55): map keys are of string kind and sorted; embedded structs are flattened as reflectutils does; values
  behind pointers live in a finite memory; `TriState`, times and `MarshalJSON` results are leaves.
* `Unmarshal` (C38, C46, C53–C60): the target is a tree (no two pointers to one variable); no `UnmarshalJSON` or
  `AfterUnmarshal` methods, times, `TriState`; references are the subject of the session model (C44) and of C61.
* Live references (C65): the dictionary that a reference holds is looked up in the result by its id (`sJSONPointer.node`); if a field
  is overwritten by another with the same key the lookup would fail, and clean graphs exclude this.
* `Unmarshal` with memory (C61–C64): objects are numbered, pointers are an object and a path into it; slices start at the
  beginning of their backing array; a map is one object; the other simplifications of `Unmarshal` apply.
* Struct tables: a struct type is an index into a table, so that recursive types need no coinduction; the zero value of a
  struct type is computed from earlier entries (Go forbids containment cycles by value).

## Axioms per theorem

From `#print axioms` (tools/axioms.py); prefix `Jsonutils.Props.` omitted.

* propext: C01_float_becomes_int, C06_panics, C11_pair_not_combined, C12_unescaped_key, C20_not_reflexive, C21_floats_differ, C22_deepcopy_loses, C22_null_identity, C25_long_s, C26_accessors, C26_diverges, C26_get, C26_scalars, C28_blank_members_lost, C28_depth_needed, C28_non_dict_empty, C28_reparse_needed, C28_silent_loss, C28_zero_key_needed, C30_noncanonical_lost, C33_size_value, C34_not_a_dictionary, C35_query_string_array, C38_float_string, C38_identity, C38_interface, C38_json_value, C38_loop, C38_old_type, C38_slice_string, C40_scalar, C40_within_needed, C43_alias_panics, C43_dangling, C43_shared_diverges, C43_unreferenced_id, C45_concurrent_string, C45_settled, C46_scalar_root, C47_chinese, C47_english_complete, C47_no_panic, C47_table, C49_query_boolean, C51_alias, C51_float_string, C52_liberties, C52_no_liberties, C53_entry, C53_untouched, C54_stale, C56_other_keys, C57_panics, C58_alloc_on_error, C58_array_string, C58_interface, C58_null, C58_text, C58_words, C60_json_array, C61_interface_forward, C61_marshal_panics, C62_sharing_lost, C63_sharing, C65_at_path, C65_delegates, C65_doc, C65_example, C66_called, C66_null, C67_calls, C67_nil, C67_once, C67_twice, C70_identity, C73_witness, C76_key_breaks_line, C76_scalars, C77_cases, C78_cases, C78_update_other, C79_once, C79_shared, C81_own_document, C83_numbers, C85_null_differs, C86_cases, C90_old_wins

* Quot.sound, propext: C15_contains, C15_ignore_case, C22_shallow_shares, C23_array_index, C25_boolean_text, C26_string_array, C27_query_escape, C30_pieces_exist, C32_interface, C32_reference, C36_any_string, C36_any_string_value, C37_eu, C37_laws, C37_us, C38_array_nil, C38_double_pointer, C39_nil_dropped, C40_blank, C42_once, C45_wait_free, C46_scalar_key, C50_no_keys, C51_append, C51_remove, C51_setAt, C51_set_knot, C53_fields, C58_bool_number, C58_bool_variable, C61_interface, C64_writes, C65_one_call, C66_bare, C66_time, C67_invariant, C67_promoted, C69_formats, C70_receiver, C72_order, C74_concurrent_documents, C74_memory, C74_wait_free, C77_documents, C77_equals, C77_interface, C77_pretty, C77_text, C78_copyExcludes, C78_copyIncludes, C79_edit, C81_frame, C81_overwrites, C81_true, C82_apart, C84_int, C84_marshal_doubles, C86_query, C87_sources, C89_allocated, C89_allocated_error, C89_fields, C89_no_write_lost, C89_only

* Classical.choice, Quot.sound, propext: C01_references, C01_round_trip, C02_negative_zero, C02_text_fixpoint, C03_valid_rfc8259, C04_last_value_wins, C04_rfc8259_accepted, C05_terminates_in_range, C06_no_panic, C06_outcomes, C06_panic_causes, C06_panics_iff, C07_parsed_well_formed, C07_reparse, C08_leading_whitespace, C08_prefix_not_read, C09_canonical, C09_iff, C09_injective, C09_insertion_order, C10_quoted_strings, C11_string_items, C12_pretty, C12_references, C13_scan, C13_stream_of_documents, C13_terminates, C14_dictionary_is_a_map, C15_add_failure, C15_add_success, C16_remove_ignore_case, C17_update, C17_update_assoc, C18_diff_determines, C18_diff_parts, C19_copies, C20_equals_equivalence, C20_equals_structural, C21_equals_iff_text, C22_copy_exists_iff, C22_deepcopy_value, C22_isolated, C22_references, C24_integer_text, C24_range, C28_exact, C28_query_roundtrip, C28_query_roundtrip_strings, C28_reparse, C29_key_order, C29_sort_unique, C29_strict_weak_order, C30_segments_roundtrip, C31_error_excerpt, C32_interface_injective, C33_is_zero, C33_length, C34_required_fields, C35_indexed_keys, C38_big_uint_string, C38_restores, C38_root, C38_text, C39_marshalAll_length, C39_omits, C39_slice, C40_aliases, C40_ends_alike, C40_marshalAll, C40_omits, C40_omits_map, C40_struct, C40_subset, C40_within, C40_within_graph, C41_result, C41_rho_diverges, C41_terminates_iff, C42_assign, C43_double_pointer, C43_id_has_ref, C43_ids, C43_refs, C43_reparse, C43_terminates, C44_any_order, C44_panic_iff, C44_pointer_definition_first, C44_pointer_definition_panics, C44_reference, C48_parameter_order, C50_kinds, C50_time, C51_add, C51_set, C52_accepts, C52_stream, C52_unambiguous, C54_array, C54_slice, C55_acyclic, C55_deterministic, C55_well_formed, C56_map, C56_map_error, C57_returns, C57_typed, C58_int, C58_int_text, C58_text_variable, C59_fields, C59_heirs, C59_heirs_scalars, C59_scalars, C60_idempotent, C61_forward_panics, C61_resolved, C62_no_forward, C62_pointer, C62_text, C62_value, C63_in_place_map, C63_in_place_pointer, C63_in_place_slice, C63_unshared, C64_reaches, C65_equals, C65_interface, C65_mirror, C65_paths, C65_unresolved, C66_text, C68_flat, C68_malformed, C68_result, C68_same_parameters, C68_shape, C69_accessor, C69_fixed, C69_read, C69_unique, C69_write, C69_write32, C70_restores, C70_root, C70_text, C70_written, C71_accessors, C71_exponent, C71_float32, C71_reread, C71_unique, C71_variables, C71_words, C72_acyclic_order, C72_collision, C72_entries, C72_int_keys, C72_int_order, C72_map, C72_text_keys, C73_errors, C73_exact, C73_round_trip, C75_parse_yaml, C75_yaml_round_trip, C75_yaml_string, C76_lines, C76_one_line, C77_deepCopy, C77_get, C77_getAt, C77_reference_copy, C77_refines, C78_diff, C78_diff_documents, C78_diff_ends, C78_update, C79_add, C79_add_fails, C79_get_edit, C79_get_set, C80_documents, C80_order, C80_set, C81_content, C81_edit, C81_shares, C82_content, C82_edit, C82_fresh, C82_shares, C83_get, C83_nested, C84_depth, C84_float, C84_parse, C84_pretty, C84_pretty_quadratic, C84_rewrite, C84_string, C85_values, C85_values_copy, C86_fold, C86_never, C86_panics, C86_refines, C86_shallow, C87_copy_shares, C87_independent, C88_equals, C88_float32, C88_identity, C88_interface, C88_marshal, C88_marshal_all, C88_no_nulls, C88_same, C90_alone, C90_fed, C90_last
