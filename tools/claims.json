[
{
"property": "C01",
"status": "proved",
"theorems": [
"C01_round_trip",
"C01_float_becomes_int",
"C01_references"
],
"note": "32-bit floats come back as the number their text denotes"
},
{
"property": "C02",
"status": "proved",
"theorems": [
"C02_text_fixpoint",
"C02_negative_zero"
],
"note": "-0.0 is a counterexample outside the hypotheses"
},
{
"property": "C03",
"status": "proved",
"theorems": [
"C03_valid_rfc8259"
],
"note": ""
},
{
"property": "C04",
"status": "proved",
"theorems": [
"C04_rfc8259_accepted",
"C04_last_value_wins"
],
"note": "no surrogate escapes, exponents below 100000, reserved key excluded"
},
{
"property": "C05",
"status": "proved",
"theorems": [
"C05_terminates_in_range"
],
"note": ""
},
{
"property": "C06",
"status": "proved",
"theorems": [
"C06_panics_iff",
"C06_outcomes",
"C06_panic_causes",
"C06_no_panic",
"C06_panics"
],
"note": "exact characterisation per kind of panic; the grammar positions are specified in Spec/Lenient.lean"
},
{
"property": "C07",
"status": "proved",
"theorems": [
"C07_parsed_well_formed",
"C07_reparse"
],
"note": ""
},
{
"property": "C08",
"status": "proved",
"theorems": [
"C08_leading_whitespace",
"C08_prefix_not_read"
],
"note": ""
},
{
"property": "C09",
"status": "proved",
"theorems": [
"C09_injective",
"C09_canonical",
"C09_insertion_order",
"C09_iff"
],
"note": ""
},
{
"property": "C10",
"status": "proved",
"theorems": [
"C10_quoted_strings"
],
"note": ""
},
{
"property": "C11",
"status": "proved",
"theorems": [
"C11_string_items",
"C11_pair_not_combined"
],
"note": ""
},
{
"property": "C12",
"status": "proved",
"theorems": [
"C12_pretty",
"C12_unescaped_key",
"C12_references"
],
"note": "as stated: keys without quote and backslash; for other keys false (witness C12_unescaped_key)"
},
{
"property": "C13",
"status": "proved",
"theorems": [
"C13_stream_of_documents",
"C13_terminates",
"C13_scan"
],
"note": ""
},
{
"property": "C14",
"status": "proved",
"theorems": [
"C14_dictionary_is_a_map"
],
"note": ""
},
{
"property": "C15",
"status": "proved",
"theorems": [
"C15_add_success",
"C15_add_failure",
"C15_ignore_case",
"C15_contains"
],
"note": ""
},
{
"property": "C16",
"status": "proved",
"theorems": [
"C16_remove_ignore_case"
],
"note": "case folding of the external map package is a parameter"
},
{
"property": "C17",
"status": "proved",
"theorems": [
"C17_update",
"C17_update_assoc"
],
"note": ""
},
{
"property": "C18",
"status": "proved",
"theorems": [
"C18_diff_parts",
"C18_diff_determines"
],
"note": ""
},
{
"property": "C19",
"status": "proved",
"theorems": [
"C19_copies"
],
"note": ""
},
{
"property": "C20",
"status": "proved",
"theorems": [
"C20_equals_structural",
"C20_equals_equivalence",
"C20_not_reflexive"
],
"note": ""
},
{
"property": "C21",
"status": "proved",
"theorems": [
"C21_equals_iff_text",
"C21_floats_differ"
],
"note": ""
},
{
"property": "C22",
"status": "proved",
"theorems": [
"C22_deepcopy_value",
"C22_isolated",
"C22_deepcopy_loses",
"C22_shallow_shares",
"C22_null_identity",
"C22_references",
"C22_copy_exists_iff"
],
"note": "iteration order of the Go map is an arbitrary permutation; each sortedmap/slice is owned by one object"
},
{
"property": "C23",
"status": "proved",
"theorems": [
"C23_array_index"
],
"note": ""
},
{
"property": "C24",
"status": "proved",
"theorems": [
"C24_integer_text",
"C24_range"
],
"note": ""
},
{
"property": "C25",
"status": "proved",
"theorems": [
"C25_boolean_text",
"C25_long_s"
],
"note": ""
},
{
"property": "C26",
"status": "proved",
"theorems": [
"C26_get",
"C26_accessors",
"C26_scalars",
"C26_diverges",
"C26_string_array"
],
"note": ""
},
{
"property": "C27",
"status": "proved",
"theorems": [
"C27_query_escape"
],
"note": "net/url.QueryEscape/QueryUnescape modelled"
},
{
"property": "C28",
"status": "proved",
"theorems": [
"C28_query_roundtrip",
"C28_query_roundtrip_strings",
"C28_depth_needed",
"C28_zero_key_needed",
"C28_silent_loss",
"C28_non_dict_empty",
"C28_blank_members_lost",
"C28_exact",
"C28_reparse",
"C28_reparse_needed"
],
"note": "scalars come back as their text; the false cases are witnessed"
},
{
"property": "C29",
"status": "proved",
"theorems": [
"C29_key_order",
"C29_strict_weak_order",
"C29_sort_unique"
],
"note": ""
},
{
"property": "C30",
"status": "proved",
"theorems": [
"C30_segments_roundtrip",
"C30_pieces_exist",
"C30_noncanonical_lost"
],
"note": ""
},
{
"property": "C31",
"status": "proved",
"theorems": [
"C31_error_excerpt"
],
"note": ""
},
{
"property": "C32",
"status": "proved",
"theorems": [
"C32_interface",
"C32_interface_injective",
"C32_reference"
],
"note": ""
},
{
"property": "C33",
"status": "proved",
"theorems": [
"C33_is_zero",
"C33_length",
"C33_size_value"
],
"note": "entry count of dictionaries under histories: C14"
},
{
"property": "C34",
"status": "proved",
"theorems": [
"C34_required_fields",
"C34_not_a_dictionary"
],
"note": ""
},
{
"property": "C35",
"status": "proved",
"theorems": [
"C35_indexed_keys",
"C35_query_string_array"
],
"note": ""
},
{
"property": "C36",
"status": "proved",
"theorems": [
"C36_any_string",
"C36_any_string_value"
],
"note": ""
},
{
"property": "C37",
"status": "proved",
"theorems": [
"C37_us",
"C37_eu",
"C37_laws"
],
"note": "the two regular expressions of yunion.io/x/pkg/util/regutils (source not available) are parameters assumed to accept the grammar CurrencyText"
},
{
"property": "C38",
"status": "proved",
"theorems": [
"C38_restores",
"C38_root",
"C38_text",
"C38_identity",
"C38_array_nil",
"C38_double_pointer",
"C38_big_uint_string",
"C38_interface",
"C38_json_value",
"C38_float_string",
"C38_slice_string",
"C38_loop",
"C38_old_type"
],
"note": "For every table of struct types, every round-trip type and value, every memory holding it (sharing allowed): Unmarshal(Marshal(v)) = v.restored, directly, under a key, and through print+parse; restored v = v for tidy values. The hypotheses exclude exactly: nil elements of slices/arrays under Marshal, pointers to pointers to containers, `,string` on floats, containers and 64-bit unsigned integers, fields deprecated by each other or by one of another type, interface{}, JSONDict/... by value, float32 and -0 through text; witnesses for these are theorems."
},
{
"property": "C39",
"status": "proved",
"theorems": [
"C39_slice",
"C39_marshalAll_length",
"C39_nil_dropped",
"C39_omits"
],
"note": "Positions are kept up to dropped elements; an element is dropped exactly if it is empty and the call is Marshal. Length kept by MarshalAll in any memory. FALSE for Marshal with nil elements: witness."
},
{
"property": "C40",
"status": "proved",
"theorems": [
"C40_struct",
"C40_marshalAll",
"C40_subset",
"C40_scalar",
"C40_within",
"C40_within_needed",
"C40_within_graph",
"C40_ends_alike",
"C40_omits",
"C40_omits_map",
"C40_blank",
"C40_aliases"
],
"note": "iff for omission; deprecated aliases; no other keys: acyclic values with distinct field names. MarshalAll keeps every field, Marshal within MarshalAll (C40_within_graph: distinct keys, the string option on scalars), both return or neither: any memory."
},
{
"property": "C41",
"status": "proved",
"theorems": [
"C41_terminates_iff",
"C41_result",
"C41_rho_diverges"
],
"note": "the iteration order of the Go map is an arbitrary permutation"
},
{
"property": "C42",
"status": "proved",
"theorems": [
"C42_assign",
"C42_once"
],
"note": "assignment to one field is a parameter that may fail"
},
{
"property": "C43",
"status": "proved",
"theorems": [
"C43_terminates",
"C43_refs",
"C43_ids",
"C43_reparse",
"C43_unreferenced_id",
"C43_shared_diverges",
"C43_dangling",
"C43_double_pointer",
"C43_alias_panics",
"C43_id_has_ref"
],
"note": "Positive part for clean graphs, with witnesses for each exclusion."
},
{
"property": "C44",
"status": "proved",
"theorems": [
"C44_reference",
"C44_any_order",
"C44_panic_iff",
"C44_pointer_definition_panics",
"C44_pointer_definition_first"
],
"note": "the session is driven by an arbitrary sequence of definition/reference events"
},
{
"property": "C45",
"status": "proved",
"theorems": [
"C45_concurrent_string",
"C45_wait_free",
"C45_settled"
],
"note": "interleaving semantics at the granularity of single reads/writes of the width field"
},
{
"property": "C46",
"status": "proved",
"theorems": [
"C46_scalar_root",
"C46_scalar_key"
],
"note": "False as stated for ints, floats and bools at the root (theorem); what holds is proved."
},
{
"property": "C47",
"status": "proved",
"theorems": [
"C47_english_complete",
"C47_no_panic",
"C47_chinese",
"C47_table"
],
"note": "C47_no_panic ranges over all keys; the table theorems are kernel-evaluated over the whole (finite) table"
},
{
"property": "C48",
"status": "proved",
"theorems": [
"C48_parameter_order"
],
"note": ""
},
{
"property": "C49",
"status": "proved",
"theorems": [
"C49_query_boolean"
],
"note": "utils.ToBool of the external package is a parameter"
},
{
"property": "C50",
"status": "proved",
"theorems": [
"C50_no_keys",
"C50_kinds",
"C50_time"
],
"note": ""
},
{
"property": "C51",
"status": "proved",
"theorems": [
"C51_set",
"C51_remove",
"C51_setAt",
"C51_append",
"C51_add",
"C51_set_knot",
"C51_alias",
"C51_float_string"
],
"note": ""
},
{
"property": "C52",
"status": "proved",
"theorems": [
"C52_accepts",
"C52_stream",
"C52_unambiguous",
"C52_liberties",
"C52_no_liberties"
],
"note": ""
},
{
"property": "C53",
"status": "proved",
"theorems": [
"C53_entry",
"C53_untouched",
"C53_fields"
],
"note": "Embedded structs are flattened; embedded nil pointers are the subject of C89."
},
{
"property": "C54",
"status": "proved",
"theorems": [
"C54_slice",
"C54_array",
"C54_stale"
],
"note": "C54_stale: the old contents of the backing array show through."
},
{
"property": "C55",
"status": "proved",
"theorems": [
"C55_well_formed",
"C55_acyclic",
"C55_deterministic"
],
"note": ""
},
{
"property": "C56",
"status": "proved",
"theorems": [
"C56_map",
"C56_map_error",
"C56_other_keys"
],
"note": ""
},
{
"property": "C57",
"status": "proved",
"theorems": [
"C57_typed",
"C57_returns",
"C57_panics"
],
"note": "Variables without types that have UnmarshalJSON or AfterUnmarshal methods, without time.Time and TriState."
},
{
"property": "C58",
"status": "proved",
"theorems": [
"C58_null",
"C58_int",
"C58_bool_variable",
"C58_text_variable",
"C58_bool_number",
"C58_interface",
"C58_text",
"C58_int_text",
"C58_alloc_on_error",
"C58_array_string",
"C58_words",
"C71_variables"
],
"note": "C58_array_string: an array goes into string but not into *string."
},
{
"property": "C59",
"status": "proved",
"theorems": [
"C59_fields",
"C59_scalars",
"C59_heirs",
"C59_heirs_scalars"
],
"note": "Types as in C38 (the option string only on booleans, texts, signed integers and unsigned integers below 64 bits; deprecated fields of the type of the field that replaces them). C59_heirs is about calls where the documents fit the fields of dst; C59_fields (no deprecated-by) also says what happens if they do not."
},
{
"property": "C60",
"status": "proved",
"theorems": [
"C60_idempotent",
"C60_json_array"
],
"note": "C60_json_array: witness that JSONArray by value is excluded for a reason."
},
{
"property": "C61",
"status": "proved",
"theorems": [
"C61_resolved",
"C61_forward_panics",
"C61_marshal_panics",
"C61_interface",
"C61_interface_forward"
],
"note": "Heap model of Unmarshal (Model/UnmarshalHeap). Forward references panic because the address of the pointer variable is saved first and assigned to the waiting variables; finding shown by C61_marshal_panics."
},
{
"property": "C62",
"status": "proved",
"theorems": [
"C62_pointer",
"C62_value",
"C62_no_forward",
"C62_text",
"C62_sharing_lost"
],
"note": "Bisimulation between the original graph and memory after Unmarshal; identity of pointers that are shared without a cycle is lost (witness). interface{} and JSON values inside the graph are left out, as in C38."
},
{
"property": "C63",
"status": "proved",
"theorems": [
"C63_unshared",
"C63_in_place_pointer",
"C63_in_place_map",
"C63_in_place_slice",
"C63_sharing"
],
"note": "Refinement between the memory model of Unmarshal and the value model used in C44-C60, by mutual induction over documents with a footprint (separation) invariant; existing pointers, maps and backing arrays with capacity stay in place; witness that sharing is visible."
},
{
"property": "C64",
"status": "proved",
"theorems": [
"C64_writes",
"C64_reaches"
],
"note": "Invariant of the whole run: a set of objects closed under references, containing the target, the session's nodes and waiting pointers, and all new objects."
},
{
"property": "C65",
"status": "proved",
"theorems": [
"C65_doc",
"C65_mirror",
"C65_paths",
"C65_interface",
"C65_equals",
"C65_one_call",
"C65_delegates",
"C65_unresolved",
"C65_at_path",
"C65_example"
],
"note": "The model looks the dictionary of a reference up in the result; in clean graphs it is always there. Interface() and Equals fail on such documents: theorems C65_interface and C65_equals say exactly when."
},
{
"property": "C66",
"status": "proved",
"theorems": [
"C66_bare",
"C66_called",
"C66_text",
"C66_null",
"C66_time"
],
"note": "user methods are arbitrary functions from text and old value to new value and error; time.Time's parsing is an arbitrary function"
},
{
"property": "C67",
"status": "proved",
"theorems": [
"C67_invariant",
"C67_calls",
"C67_once",
"C67_twice",
"C67_nil",
"C67_promoted"
],
"note": "methods are arbitrary functions; promotion of methods follows Go's depth rule"
},
{
"property": "C68",
"status": "proved",
"theorems": [
"C68_malformed",
"C68_same_parameters",
"C68_flat",
"C68_result",
"C68_shape"
],
"note": "percent decoding specified independently (Spec/Params)"
},
{
"property": "C69",
"status": "proved",
"theorems": [
"C69_read",
"C69_unique",
"C69_accessor",
"C69_write",
"C69_write32",
"C69_fixed",
"C69_formats"
],
"note": "strconv is modelled concretely; these theorems tie that model to the IEEE-754 specification in Spec/Float"
},
{
"property": "C70",
"status": "proved",
"theorems": [
"C70_restores",
"C70_root",
"C70_text",
"C70_identity",
"C70_written",
"C70_receiver"
],
"note": "Methods are arbitrary functions found by type; named slice and map types with methods are excluded (their nil values are not modelled)."
},
{
"property": "C71",
"status": "proved",
"theorems": [
"C71_accessors",
"C71_unique",
"C71_words",
"C71_variables",
"C71_float32",
"C71_exponent",
"C71_reread"
],
"note": "strconv's ParseFloat, ParseInt, ParseUint are modelled concretely (Model/Strconv) and proved equal to the grammar of Spec/Numeral; exponents of 100000 and more are cut to their first five digits, as in strconv."
},
{
"property": "C72",
"status": "proved",
"theorems": [
"C72_order",
"C72_acyclic_order",
"C72_map",
"C72_entries",
"C72_text_keys",
"C72_int_keys",
"C72_int_order",
"C72_collision"
],
"note": "fmt.Sprintf(\"%s\") and reflect.Value.String on keys of string and integer kind are modelled from their documentation; other kinds are parameters."
},
{
"property": "C73",
"status": "proved",
"theorems": [
"C73_exact",
"C73_errors",
"C73_round_trip",
"C73_witness"
],
"note": "Registry of gotypes modelled as the three entries of reflect.go; Transform is the identity (no transformer registered in the package). Types registered by other packages are not modelled."
},
{
"property": "C74",
"status": "proved",
"theorems": [
"C74_concurrent_documents",
"C74_wait_free",
"C74_memory"
],
"note": "Small-step machine over the heap model; generalises C45. No mutating call runs at the same time."
},
{
"property": "C75",
"status": "proved",
"theorems": [
"C75_yaml_round_trip",
"C75_parse_yaml",
"C75_yaml_string"
],
"note": "github.com/ghodss/yaml is external: a parameter with an explicit per-text contract (YamlLib.Keeps)."
},
{
"property": "C76",
"status": "proved",
"theorems": [
"C76_one_line",
"C76_lines",
"C76_scalars",
"C76_key_breaks_line"
],
"note": "layout as a list of levelled lines (Spec/Layout); keys with line breaks are the finding C76_key_breaks_line"
},
{
"property": "C77",
"status": "proved",
"theorems": [
"C77_documents",
"C77_text",
"C77_pretty",
"C77_interface",
"C77_get",
"C77_refines",
"C77_getAt",
"C77_deepCopy",
"C77_reference_copy",
"C77_equals",
"C77_cases"
],
"note": "Heap model (Model/HeapRead); fuel exhaustion for every fuel = the Go call never returns. Nil pointers of a concrete type inside an interface are not modelled; references are unresolved."
},
{
"property": "C78",
"status": "proved",
"theorems": [
"C78_copyExcludes",
"C78_copyIncludes",
"C78_update",
"C78_diff",
"C78_diff_ends",
"C78_diff_documents",
"C78_cases",
"C78_update_other"
],
"note": ""
},
{
"property": "C79",
"status": "proved",
"theorems": [
"C79_edit",
"C79_once",
"C79_get_set",
"C79_get_edit",
"C79_add",
"C79_add_fails",
"C79_shared"
],
"note": "Edited/Way/Sub (Spec/HeapEdit) define occurrences and replacement without model helpers. Hypothesis: what is put in does not contain the changed object (otherwise C51_set_knot)."
},
{
"property": "C80",
"status": "proved",
"theorems": [
"C80_order",
"C80_documents",
"C80_set"
],
"note": "Discharges, for reachable memories, the hypotheses (Ok, Tidy, Seen, WF) that the other memory properties carry."
},
{
"property": "C81",
"status": "proved",
"theorems": [
"C81_content",
"C81_shares",
"C81_edit",
"C81_frame",
"C81_overwrites",
"C81_true",
"C81_own_document"
],
"note": "Not in this model: interface{}, Go arrays, maps with keys other than strings, JSONDict etc. by value. C81_content, C81_shares and C81_edit are about variables whose *JSONString, *JSONInt, *JSONBool parts are nil; C81_shares and C81_edit about types without deprecated-by fields, C81_content also about those with deprecated-by fields in struct types without such parts; C81_frame, C81_overwrites, C81_true, C81_own_document show what happens otherwise."
},
{
"property": "C82",
"status": "proved",
"theorems": [
"C82_content",
"C82_shares",
"C82_fresh",
"C82_edit",
"C82_apart"
],
"note": "Not in this model: interface{}, Go arrays, maps with keys other than strings, JSONDict etc. by value, MarshalJSON methods, cyclic values."
},
{
"property": "C83",
"status": "proved",
"theorems": [
"C83_nested",
"C83_get",
"C83_numbers"
],
"note": "Exact: both directions for values and for dictionaries. Keys with numbers behind the first dot: round trips in C28, witnesses here."
},
{
"property": "C84",
"status": "proved",
"theorems": [
"C84_parse",
"C84_depth",
"C84_string",
"C84_rewrite",
"C84_float",
"C84_int",
"C84_pretty",
"C84_pretty_quadratic",
"C84_marshal_doubles"
],
"note": "Documents for C84_string and C84_pretty: integers and node ids are int64, floats are doubles, the reserved key is not used (all parsed documents are such)."
},
{
"property": "C85",
"status": "proved",
"theorems": [
"C85_values",
"C85_values_copy",
"C85_null_differs"
],
"note": "The two machines are Spec/Owner. Values written in programs are well-formed documents without references. Update with a receiver and operand at different variables; an operand that is given away leaves its variable empty (C79_shared shows what happens otherwise)."
},
{
"property": "C86",
"status": "proved",
"theorems": [
"C86_refines",
"C86_panics",
"C86_never",
"C86_query",
"C86_cases",
"C86_fold",
"C86_shallow"
],
"note": "Same memory model as C77. When String panics is C77; the layouts of GetTime are parameters, as in C12."
},
{
"property": "C87",
"status": "proved",
"theorems": [
"C87_copy_shares",
"C87_independent",
"C87_sources"
],
"note": "types as for C38; documents without references, for C87_independent also without node ids"
},
{
"property": "C88",
"status": "proved",
"theorems": [
"C88_marshal_all",
"C88_marshal",
"C88_interface",
"C88_equals",
"C88_identity",
"C88_no_nulls",
"C88_same",
"C88_float32"
],
"note": ""
},
{
"property": "C89",
"status": "proved",
"theorems": [
"C89_fields",
"C89_only",
"C89_allocated",
"C89_allocated_error",
"C89_no_write_lost"
],
"note": "Which embedded pointer a field belongs to (Parent) is determined by reflectutils and a parameter here; a pointer embedded in an embedded pointer is set or not by itself."
},
{
"property": "C90",
"status": "proved",
"theorems": [
"C90_fed",
"C90_last",
"C90_alone",
"C90_old_wins"
],
"note": "Struct types where one key leads to two different names of the same field are excluded (OneName); an empty text leaves a number unchanged and is excluded from C90_last. What happens if errors occur: C53."
}
]