{
 "claims": [
  {
   "property": "C01",
   "status": "proved",
   "theorems": [
    "Jsonutils.Props.C01_round_trip",
    "Jsonutils.Props.C01_float_becomes_int",
    "Jsonutils.Props.C01_references"
   ],
   "note": "32-bit floats come back as the number their text denotes"
  },
  {
   "property": "C02",
   "status": "proved",
   "theorems": [
    "Jsonutils.Props.C02_text_fixpoint",
    "Jsonutils.Props.C02_negative_zero"
   ],
   "note": "-0.0 is a counterexample outside the hypotheses"
  },
  {
   "property": "C03",
   "status": "proved",
   "theorems": [
    "Jsonutils.Props.C03_valid_rfc8259"
   ],
   "note": ""
  },
  {
   "property": "C04",
   "status": "proved",
   "theorems": [
    "Jsonutils.Props.C04_rfc8259_accepted",
    "Jsonutils.Props.C04_last_value_wins"
   ],
   "note": "no surrogate escapes, exponents below 100000, reserved key excluded"
  },
  {
   "property": "C05",
   "status": "proved",
   "theorems": [
    "Jsonutils.Props.C05_terminates_in_range"
   ],
   "note": ""
  },
  {
   "property": "C06",
   "status": "proved",
   "theorems": [
    "Jsonutils.Props.C06_panics_iff",
    "Jsonutils.Props.C06_outcomes",
    "Jsonutils.Props.C06_panic_causes",
    "Jsonutils.Props.C06_no_panic",
    "Jsonutils.Props.C06_panics"
   ],
   "note": "exact characterisation per kind of panic; the grammar positions are specified in Spec/Lenient.lean"
  },
  {
   "property": "C07",
   "status": "proved",
   "theorems": [
    "Jsonutils.Props.C07_parsed_well_formed",
    "Jsonutils.Props.C07_reparse"
   ],
   "note": ""
  },
  {
   "property": "C08",
   "status": "proved",
   "theorems": [
    "Jsonutils.Props.C08_leading_whitespace",
    "Jsonutils.Props.C08_prefix_not_read"
   ],
   "note": ""
  },
  {
   "property": "C09",
   "status": "proved",
   "theorems": [
    "Jsonutils.Props.C09_injective",
    "Jsonutils.Props.C09_canonical",
    "Jsonutils.Props.C09_insertion_order",
    "Jsonutils.Props.C09_iff"
   ],
   "note": ""
  },
  {
   "property": "C10",
   "status": "proved",
   "theorems": [
    "Jsonutils.Props.C10_quoted_strings"
   ],
   "note": ""
  },
  {
   "property": "C11",
   "status": "proved",
   "theorems": [
    "Jsonutils.Props.C11_string_items",
    "Jsonutils.Props.C11_pair_not_combined"
   ],
   "note": ""
  },
  {
   "property": "C12",
   "status": "proved",
   "theorems": [
    "Jsonutils.Props.C12_pretty",
    "Jsonutils.Props.C12_unescaped_key",
    "Jsonutils.Props.C12_references"
   ],
   "note": "as stated: keys without quote and backslash; for other keys false (witness C12_unescaped_key)"
  },
  {
   "property": "C13",
   "status": "proved",
   "theorems": [
    "Jsonutils.Props.C13_stream_of_documents",
    "Jsonutils.Props.C13_terminates",
    "Jsonutils.Props.C13_scan"
   ],
   "note": ""
  },
  {
   "property": "C14",
   "status": "proved",
   "theorems": [
    "Jsonutils.Props.C14_dictionary_is_a_map"
   ],
   "note": ""
  },
  {
   "property": "C15",
   "status": "proved",
   "theorems": [
    "Jsonutils.Props.C15_add_success",
    "Jsonutils.Props.C15_add_failure",
    "Jsonutils.Props.C15_ignore_case",
    "Jsonutils.Props.C15_contains"
   ],
   "note": ""
  },
  {
   "property": "C16",
   "status": "proved",
   "theorems": [
    "Jsonutils.Props.C16_remove_ignore_case"
   ],
   "note": "case folding of the external map package is a parameter"
  },
  {
   "property": "C17",
   "status": "proved",
   "theorems": [
    "Jsonutils.Props.C17_update",
    "Jsonutils.Props.C17_update_assoc"
   ],
   "note": ""
  },
  {
   "property": "C18",
   "status": "proved",
   "theorems": [
    "Jsonutils.Props.C18_diff_parts",
    "Jsonutils.Props.C18_diff_determines"
   ],
   "note": ""
  },
  {
   "property": "C19",
   "status": "proved",
   "theorems": [
    "Jsonutils.Props.C19_copies"
   ],
   "note": ""
  },
  {
   "property": "C20",
   "status": "proved",
   "theorems": [
    "Jsonutils.Props.C20_equals_structural",
    "Jsonutils.Props.C20_equals_equivalence",
    "Jsonutils.Props.C20_not_reflexive"
   ],
   "note": ""
  },
  {
   "property": "C21",
   "status": "proved",
   "theorems": [
    "Jsonutils.Props.C21_equals_iff_text",
    "Jsonutils.Props.C21_floats_differ"
   ],
   "note": ""
  },
  {
   "property": "C22",
   "status": "proved",
   "theorems": [
    "Jsonutils.Props.C22_deepcopy_value",
    "Jsonutils.Props.C22_isolated",
    "Jsonutils.Props.C22_deepcopy_loses",
    "Jsonutils.Props.C22_shallow_shares",
    "Jsonutils.Props.C22_null_identity",
    "Jsonutils.Props.C22_references",
    "Jsonutils.Props.C22_copy_exists_iff"
   ],
   "note": "iteration order of the Go map is an arbitrary permutation; each sortedmap/slice is owned by one object"
  },
  {
   "property": "C23",
   "status": "proved",
   "theorems": [
    "Jsonutils.Props.C23_array_index"
   ],
   "note": ""
  },
  {
   "property": "C24",
   "status": "proved",
   "theorems": [
    "Jsonutils.Props.C24_integer_text",
    "Jsonutils.Props.C24_range"
   ],
   "note": ""
  },
  {
   "property": "C25",
   "status": "proved",
   "theorems": [
    "Jsonutils.Props.C25_boolean_text",
    "Jsonutils.Props.C25_long_s"
   ],
   "note": ""
  },
  {
   "property": "C26",
   "status": "proved",
   "theorems": [
    "Jsonutils.Props.C26_get",
    "Jsonutils.Props.C26_accessors",
    "Jsonutils.Props.C26_scalars",
    "Jsonutils.Props.C26_diverges",
    "Jsonutils.Props.C26_string_array"
   ],
   "note": ""
  },
  {
   "property": "C27",
   "status": "proved",
   "theorems": [
    "Jsonutils.Props.C27_query_escape"
   ],
   "note": "net/url.QueryEscape/QueryUnescape modelled"
  },
  {
   "property": "C28",
   "status": "proved",
   "theorems": [
    "Jsonutils.Props.C28_query_roundtrip",
    "Jsonutils.Props.C28_query_roundtrip_strings",
    "Jsonutils.Props.C28_depth_needed",
    "Jsonutils.Props.C28_zero_key_needed",
    "Jsonutils.Props.C28_silent_loss",
    "Jsonutils.Props.C28_non_dict_empty",
    "Jsonutils.Props.C28_blank_members_lost",
    "Jsonutils.Props.C28_exact",
    "Jsonutils.Props.C28_reparse",
    "Jsonutils.Props.C28_reparse_needed"
   ],
   "note": "scalars come back as their text; the false cases are witnessed"
  },
  {
   "property": "C29",
   "status": "proved",
   "theorems": [
    "Jsonutils.Props.C29_key_order",
    "Jsonutils.Props.C29_strict_weak_order",
    "Jsonutils.Props.C29_sort_unique"
   ],
   "note": ""
  },
  {
   "property": "C30",
   "status": "proved",
   "theorems": [
    "Jsonutils.Props.C30_segments_roundtrip",
    "Jsonutils.Props.C30_pieces_exist",
    "Jsonutils.Props.C30_noncanonical_lost"
   ],
   "note": ""
  },
  {
   "property": "C31",
   "status": "proved",
   "theorems": [
    "Jsonutils.Props.C31_error_excerpt"
   ],
   "note": ""
  },
  {
   "property": "C32",
   "status": "proved",
   "theorems": [
    "Jsonutils.Props.C32_interface",
    "Jsonutils.Props.C32_interface_injective",
    "Jsonutils.Props.C32_reference"
   ],
   "note": ""
  },
  {
   "property": "C33",
   "status": "proved",
   "theorems": [
    "Jsonutils.Props.C33_is_zero",
    "Jsonutils.Props.C33_length",
    "Jsonutils.Props.C33_size_value"
   ],
   "note": "entry count of dictionaries under histories: C14"
  },
  {
   "property": "C34",
   "status": "proved",
   "theorems": [
    "Jsonutils.Props.C34_required_fields",
    "Jsonutils.Props.C34_not_a_dictionary"
   ],
   "note": ""
  },
  {
   "property": "C35",
   "status": "proved",
   "theorems": [
    "Jsonutils.Props.C35_indexed_keys",
    "Jsonutils.Props.C35_query_string_array"
   ],
   "note": ""
  },
  {
   "property": "C36",
   "status": "proved",
   "theorems": [
    "Jsonutils.Props.C36_any_string",
    "Jsonutils.Props.C36_any_string_value"
   ],
   "note": ""
  },
  {
   "property": "C37",
   "status": "proved",
   "theorems": [
    "Jsonutils.Props.C37_us",
    "Jsonutils.Props.C37_eu",
    "Jsonutils.Props.C37_laws"
   ],
   "note": "the two regular expressions of yunion.io/x/pkg/util/regutils (source not available) are parameters assumed to accept the grammar CurrencyText"
  },
  {
   "property": "C38",
   "status": "proved",
   "theorems": [
    "Jsonutils.Props.C38_restores",
    "Jsonutils.Props.C38_root",
    "Jsonutils.Props.C38_text",
    "Jsonutils.Props.C38_identity",
    "Jsonutils.Props.C38_array_nil",
    "Jsonutils.Props.C38_double_pointer",
    "Jsonutils.Props.C38_big_uint_string",
    "Jsonutils.Props.C38_interface",
    "Jsonutils.Props.C38_json_value",
    "Jsonutils.Props.C38_float_string",
    "Jsonutils.Props.C38_slice_string",
    "Jsonutils.Props.C38_loop",
    "Jsonutils.Props.C38_old_type"
   ],
   "note": "For every table of struct types, every round-trip type and value, every memory holding it (sharing allowed): Unmarshal(Marshal(v)) = v.restored, directly, under a key, and through print+parse; restored v = v for tidy values. The hypotheses exclude exactly: nil elements of slices/arrays under Marshal, pointers to pointers to containers, `,string` on floats, containers and 64-bit unsigned integers, fields deprecated by each other or by one of another type, interface{}, JSONDict/... by value, float32 and -0 through text; witnesses for these are theorems."
  },
  {
   "property": "C39",
   "status": "proved",
   "theorems": [
    "Jsonutils.Props.C39_slice",
    "Jsonutils.Props.C39_marshalAll_length",
    "Jsonutils.Props.C39_nil_dropped",
    "Jsonutils.Props.C39_omits"
   ],
   "note": "Positions are kept up to dropped elements; an element is dropped exactly if it is empty and the call is Marshal. Length kept by MarshalAll in any memory. FALSE for Marshal with nil elements: witness."
  },
  {
   "property": "C40",
   "status": "proved",
   "theorems": [
    "Jsonutils.Props.C40_struct",
    "Jsonutils.Props.C40_marshalAll",
    "Jsonutils.Props.C40_subset",
    "Jsonutils.Props.C40_scalar",
    "Jsonutils.Props.C40_within",
    "Jsonutils.Props.C40_within_needed",
    "Jsonutils.Props.C40_within_graph",
    "Jsonutils.Props.C40_ends_alike",
    "Jsonutils.Props.C40_omits",
    "Jsonutils.Props.C40_omits_map",
    "Jsonutils.Props.C40_blank",
    "Jsonutils.Props.C40_aliases"
   ],
   "note": "iff for omission; deprecated aliases; no other keys: acyclic values with distinct field names. MarshalAll keeps every field, Marshal within MarshalAll (C40_within_graph: distinct keys, the string option on scalars), both return or neither: any memory."
  },
  {
   "property": "C41",
   "status": "proved",
   "theorems": [
    "Jsonutils.Props.C41_terminates_iff",
    "Jsonutils.Props.C41_result",
    "Jsonutils.Props.C41_rho_diverges"
   ],
   "note": "the iteration order of the Go map is an arbitrary permutation"
  },
  {
   "property": "C42",
   "status": "proved",
   "theorems": [
    "Jsonutils.Props.C42_assign",
    "Jsonutils.Props.C42_once"
   ],
   "note": "assignment to one field is a parameter that may fail"
  },
  {
   "property": "C43",
   "status": "proved",
   "theorems": [
    "Jsonutils.Props.C43_terminates",
    "Jsonutils.Props.C43_refs",
    "Jsonutils.Props.C43_ids",
    "Jsonutils.Props.C43_reparse",
    "Jsonutils.Props.C43_unreferenced_id",
    "Jsonutils.Props.C43_shared_diverges",
    "Jsonutils.Props.C43_dangling",
    "Jsonutils.Props.C43_double_pointer",
    "Jsonutils.Props.C43_alias_panics",
    "Jsonutils.Props.C43_id_has_ref"
   ],
   "note": "Positive part for clean graphs, with witnesses for each exclusion."
  },
  {
   "property": "C44",
   "status": "proved",
   "theorems": [
    "Jsonutils.Props.C44_reference",
    "Jsonutils.Props.C44_any_order",
    "Jsonutils.Props.C44_panic_iff",
    "Jsonutils.Props.C44_pointer_definition_panics",
    "Jsonutils.Props.C44_pointer_definition_first"
   ],
   "note": "the session is driven by an arbitrary sequence of definition/reference events"
  },
  {
   "property": "C45",
   "status": "proved",
   "theorems": [
    "Jsonutils.Props.C45_concurrent_string",
    "Jsonutils.Props.C45_wait_free",
    "Jsonutils.Props.C45_settled"
   ],
   "note": "interleaving semantics at the granularity of single reads/writes of the width field"
  },
  {
   "property": "C46",
   "status": "proved",
   "theorems": [
    "Jsonutils.Props.C46_scalar_root",
    "Jsonutils.Props.C46_scalar_key"
   ],
   "note": "False as stated for ints, floats and bools at the root (theorem); what holds is proved."
  },
  {
   "property": "C47",
   "status": "proved",
   "theorems": [
    "Jsonutils.Props.C47_english_complete",
    "Jsonutils.Props.C47_no_panic",
    "Jsonutils.Props.C47_chinese",
    "Jsonutils.Props.C47_table"
   ],
   "note": "C47_no_panic ranges over all keys; the table theorems are kernel-evaluated over the whole (finite) table"
  },
  {
   "property": "C48",
   "status": "proved",
   "theorems": [
    "Jsonutils.Props.C48_parameter_order"
   ],
   "note": ""
  },
  {
   "property": "C49",
   "status": "proved",
   "theorems": [
    "Jsonutils.Props.C49_query_boolean"
   ],
   "note": "utils.ToBool of the external package is a parameter"
  },
  {
   "property": "C50",
   "status": "proved",
   "theorems": [
    "Jsonutils.Props.C50_no_keys",
    "Jsonutils.Props.C50_kinds",
    "Jsonutils.Props.C50_time"
   ],
   "note": ""
  },
  {
   "property": "C51",
   "status": "proved",
   "theorems": [
    "Jsonutils.Props.C51_set",
    "Jsonutils.Props.C51_remove",
    "Jsonutils.Props.C51_setAt",
    "Jsonutils.Props.C51_append",
    "Jsonutils.Props.C51_add",
    "Jsonutils.Props.C51_set_knot",
    "Jsonutils.Props.C51_alias",
    "Jsonutils.Props.C51_float_string"
   ],
   "note": ""
  },
  {
   "property": "C52",
   "status": "proved",
   "theorems": [
    "Jsonutils.Props.C52_accepts",
    "Jsonutils.Props.C52_stream",
    "Jsonutils.Props.C52_unambiguous",
    "Jsonutils.Props.C52_liberties",
    "Jsonutils.Props.C52_no_liberties"
   ],
   "note": ""
  },
  {
   "property": "C53",
   "status": "proved",
   "theorems": [
    "Jsonutils.Props.C53_entry",
    "Jsonutils.Props.C53_untouched",
    "Jsonutils.Props.C53_fields"
   ],
   "note": "Embedded structs are flattened; embedded nil pointers are the subject of C89."
  },
  {
   "property": "C54",
   "status": "proved",
   "theorems": [
    "Jsonutils.Props.C54_slice",
    "Jsonutils.Props.C54_array",
    "Jsonutils.Props.C54_stale"
   ],
   "note": "C54_stale: the old contents of the backing array show through."
  },
  {
   "property": "C55",
   "status": "proved",
   "theorems": [
    "Jsonutils.Props.C55_well_formed",
    "Jsonutils.Props.C55_acyclic",
    "Jsonutils.Props.C55_deterministic"
   ],
   "note": ""
  },
  {
   "property": "C56",
   "status": "proved",
   "theorems": [
    "Jsonutils.Props.C56_map",
    "Jsonutils.Props.C56_map_error",
    "Jsonutils.Props.C56_other_keys"
   ],
   "note": ""
  },
  {
   "property": "C57",
   "status": "proved",
   "theorems": [
    "Jsonutils.Props.C57_typed",
    "Jsonutils.Props.C57_returns",
    "Jsonutils.Props.C57_panics"
   ],
   "note": "Variables without types that have UnmarshalJSON or AfterUnmarshal methods, without time.Time and TriState."
  },
  {
   "property": "C58",
   "status": "proved",
   "theorems": [
    "Jsonutils.Props.C58_null",
    "Jsonutils.Props.C58_int",
    "Jsonutils.Props.C58_bool_variable",
    "Jsonutils.Props.C58_text_variable",
    "Jsonutils.Props.C58_bool_number",
    "Jsonutils.Props.C58_interface",
    "Jsonutils.Props.C58_text",
    "Jsonutils.Props.C58_int_text",
    "Jsonutils.Props.C58_alloc_on_error",
    "Jsonutils.Props.C58_array_string",
    "Jsonutils.Props.C58_words",
    "Jsonutils.Props.C71_variables"
   ],
   "note": "C58_array_string: an array goes into string but not into *string."
  },
  {
   "property": "C59",
   "status": "proved",
   "theorems": [
    "Jsonutils.Props.C59_fields",
    "Jsonutils.Props.C59_scalars",
    "Jsonutils.Props.C59_heirs",
    "Jsonutils.Props.C59_heirs_scalars"
   ],
   "note": "Types as in C38 (the option string only on booleans, texts, signed integers and unsigned integers below 64 bits; deprecated fields of the type of the field that replaces them). C59_heirs is about calls where the documents fit the fields of dst; C59_fields (no deprecated-by) also says what happens if they do not."
  },
  {
   "property": "C60",
   "status": "proved",
   "theorems": [
    "Jsonutils.Props.C60_idempotent",
    "Jsonutils.Props.C60_json_array"
   ],
   "note": "C60_json_array: witness that JSONArray by value is excluded for a reason."
  },
  {
   "property": "C61",
   "status": "proved",
   "theorems": [
    "Jsonutils.Props.C61_resolved",
    "Jsonutils.Props.C61_forward_panics",
    "Jsonutils.Props.C61_marshal_panics",
    "Jsonutils.Props.C61_interface",
    "Jsonutils.Props.C61_interface_forward"
   ],
   "note": "Heap model of Unmarshal (Model/UnmarshalHeap). Forward references panic because the address of the pointer variable is saved first and assigned to the waiting variables; finding shown by C61_marshal_panics."
  },
  {
   "property": "C62",
   "status": "proved",
   "theorems": [
    "Jsonutils.Props.C62_pointer",
    "Jsonutils.Props.C62_value",
    "Jsonutils.Props.C62_no_forward",
    "Jsonutils.Props.C62_text",
    "Jsonutils.Props.C62_sharing_lost"
   ],
   "note": "Bisimulation between the original graph and memory after Unmarshal; identity of pointers that are shared without a cycle is lost (witness). interface{} and JSON values inside the graph are left out, as in C38."
  },
  {
   "property": "C63",
   "status": "proved",
   "theorems": [
    "Jsonutils.Props.C63_unshared",
    "Jsonutils.Props.C63_in_place_pointer",
    "Jsonutils.Props.C63_in_place_map",
    "Jsonutils.Props.C63_in_place_slice",
    "Jsonutils.Props.C63_sharing"
   ],
   "note": "Refinement between the memory model of Unmarshal and the value model used in C44-C60, by mutual induction over documents with a footprint (separation) invariant; existing pointers, maps and backing arrays with capacity stay in place; witness that sharing is visible."
  },
  {
   "property": "C64",
   "status": "proved",
   "theorems": [
    "Jsonutils.Props.C64_writes",
    "Jsonutils.Props.C64_reaches"
   ],
   "note": "Invariant of the whole run: a set of objects closed under references, containing the target, the session's nodes and waiting pointers, and all new objects."
  },
  {
   "property": "C65",
   "status": "proved",
   "theorems": [
    "Jsonutils.Props.C65_doc",
    "Jsonutils.Props.C65_mirror",
    "Jsonutils.Props.C65_paths",
    "Jsonutils.Props.C65_interface",
    "Jsonutils.Props.C65_equals",
    "Jsonutils.Props.C65_one_call",
    "Jsonutils.Props.C65_delegates",
    "Jsonutils.Props.C65_unresolved",
    "Jsonutils.Props.C65_at_path",
    "Jsonutils.Props.C65_example"
   ],
   "note": "The model looks the dictionary of a reference up in the result; in clean graphs it is always there. Interface() and Equals fail on such documents: theorems C65_interface and C65_equals say exactly when."
  },
  {
   "property": "C66",
   "status": "proved",
   "theorems": [
    "Jsonutils.Props.C66_bare",
    "Jsonutils.Props.C66_called",
    "Jsonutils.Props.C66_text",
    "Jsonutils.Props.C66_null",
    "Jsonutils.Props.C66_time"
   ],
   "note": "user methods are arbitrary functions from text and old value to new value and error; time.Time's parsing is an arbitrary function"
  },
  {
   "property": "C67",
   "status": "proved",
   "theorems": [
    "Jsonutils.Props.C67_invariant",
    "Jsonutils.Props.C67_calls",
    "Jsonutils.Props.C67_once",
    "Jsonutils.Props.C67_twice",
    "Jsonutils.Props.C67_nil",
    "Jsonutils.Props.C67_promoted"
   ],
   "note": "methods are arbitrary functions; promotion of methods follows Go's depth rule"
  },
  {
   "property": "C68",
   "status": "proved",
   "theorems": [
    "Jsonutils.Props.C68_malformed",
    "Jsonutils.Props.C68_same_parameters",
    "Jsonutils.Props.C68_flat",
    "Jsonutils.Props.C68_result",
    "Jsonutils.Props.C68_shape"
   ],
   "note": "percent decoding specified independently (Spec/Params)"
  },
  {
   "property": "C69",
   "status": "proved",
   "theorems": [
    "Jsonutils.Props.C69_read",
    "Jsonutils.Props.C69_unique",
    "Jsonutils.Props.C69_accessor",
    "Jsonutils.Props.C69_write",
    "Jsonutils.Props.C69_write32",
    "Jsonutils.Props.C69_fixed",
    "Jsonutils.Props.C69_formats"
   ],
   "note": "strconv is modelled concretely; these theorems tie that model to the IEEE-754 specification in Spec/Float"
  },
  {
   "property": "C70",
   "status": "proved",
   "theorems": [
    "Jsonutils.Props.C70_restores",
    "Jsonutils.Props.C70_root",
    "Jsonutils.Props.C70_text",
    "Jsonutils.Props.C70_identity",
    "Jsonutils.Props.C70_written",
    "Jsonutils.Props.C70_receiver"
   ],
   "note": "Methods are arbitrary functions found by type; named slice and map types with methods are excluded (their nil values are not modelled)."
  },
  {
   "property": "C71",
   "status": "proved",
   "theorems": [
    "Jsonutils.Props.C71_accessors",
    "Jsonutils.Props.C71_unique",
    "Jsonutils.Props.C71_words",
    "Jsonutils.Props.C71_variables",
    "Jsonutils.Props.C71_float32",
    "Jsonutils.Props.C71_exponent",
    "Jsonutils.Props.C71_reread"
   ],
   "note": "strconv's ParseFloat, ParseInt, ParseUint are modelled concretely (Model/Strconv) and proved equal to the grammar of Spec/Numeral; exponents of 100000 and more are cut to their first five digits, as in strconv."
  },
  {
   "property": "C72",
   "status": "proved",
   "theorems": [
    "Jsonutils.Props.C72_order",
    "Jsonutils.Props.C72_acyclic_order",
    "Jsonutils.Props.C72_map",
    "Jsonutils.Props.C72_entries",
    "Jsonutils.Props.C72_text_keys",
    "Jsonutils.Props.C72_int_keys",
    "Jsonutils.Props.C72_int_order",
    "Jsonutils.Props.C72_collision"
   ],
   "note": "fmt.Sprintf(\"%s\") and reflect.Value.String on keys of string and integer kind are modelled from their documentation; other kinds are parameters."
  },
  {
   "property": "C73",
   "status": "proved",
   "theorems": [
    "Jsonutils.Props.C73_exact",
    "Jsonutils.Props.C73_errors",
    "Jsonutils.Props.C73_round_trip",
    "Jsonutils.Props.C73_witness"
   ],
   "note": "Registry of gotypes modelled as the three entries of reflect.go; Transform is the identity (no transformer registered in the package). Types registered by other packages are not modelled."
  },
  {
   "property": "C74",
   "status": "proved",
   "theorems": [
    "Jsonutils.Props.C74_concurrent_documents",
    "Jsonutils.Props.C74_wait_free",
    "Jsonutils.Props.C74_memory"
   ],
   "note": "Small-step machine over the heap model; generalises C45. No mutating call runs at the same time."
  },
  {
   "property": "C75",
   "status": "proved",
   "theorems": [
    "Jsonutils.Props.C75_yaml_round_trip",
    "Jsonutils.Props.C75_parse_yaml",
    "Jsonutils.Props.C75_yaml_string"
   ],
   "note": "github.com/ghodss/yaml is external: a parameter with an explicit per-text contract (YamlLib.Keeps)."
  },
  {
   "property": "C76",
   "status": "proved",
   "theorems": [
    "Jsonutils.Props.C76_one_line",
    "Jsonutils.Props.C76_lines",
    "Jsonutils.Props.C76_scalars",
    "Jsonutils.Props.C76_key_breaks_line"
   ],
   "note": "layout as a list of levelled lines (Spec/Layout); keys with line breaks are the finding C76_key_breaks_line"
  },
  {
   "property": "C77",
   "status": "proved",
   "theorems": [
    "Jsonutils.Props.C77_documents",
    "Jsonutils.Props.C77_text",
    "Jsonutils.Props.C77_pretty",
    "Jsonutils.Props.C77_interface",
    "Jsonutils.Props.C77_get",
    "Jsonutils.Props.C77_refines",
    "Jsonutils.Props.C77_getAt",
    "Jsonutils.Props.C77_deepCopy",
    "Jsonutils.Props.C77_reference_copy",
    "Jsonutils.Props.C77_equals",
    "Jsonutils.Props.C77_cases"
   ],
   "note": "Heap model (Model/HeapRead); fuel exhaustion for every fuel = the Go call never returns. Nil pointers of a concrete type inside an interface are not modelled; references are unresolved."
  },
  {
   "property": "C78",
   "status": "proved",
   "theorems": [
    "Jsonutils.Props.C78_copyExcludes",
    "Jsonutils.Props.C78_copyIncludes",
    "Jsonutils.Props.C78_update",
    "Jsonutils.Props.C78_diff",
    "Jsonutils.Props.C78_diff_ends",
    "Jsonutils.Props.C78_diff_documents",
    "Jsonutils.Props.C78_cases",
    "Jsonutils.Props.C78_update_other"
   ],
   "note": ""
  },
  {
   "property": "C79",
   "status": "proved",
   "theorems": [
    "Jsonutils.Props.C79_edit",
    "Jsonutils.Props.C79_once",
    "Jsonutils.Props.C79_get_set",
    "Jsonutils.Props.C79_get_edit",
    "Jsonutils.Props.C79_add",
    "Jsonutils.Props.C79_add_fails",
    "Jsonutils.Props.C79_shared"
   ],
   "note": "Edited/Way/Sub (Spec/HeapEdit) define occurrences and replacement without model helpers. Hypothesis: what is put in does not contain the changed object (otherwise C51_set_knot)."
  },
  {
   "property": "C80",
   "status": "proved",
   "theorems": [
    "Jsonutils.Props.C80_order",
    "Jsonutils.Props.C80_documents",
    "Jsonutils.Props.C80_set"
   ],
   "note": "Discharges, for reachable memories, the hypotheses (Ok, Tidy, Seen, WF) that the other memory properties carry."
  },
  {
   "property": "C81",
   "status": "proved",
   "theorems": [
    "Jsonutils.Props.C81_content",
    "Jsonutils.Props.C81_shares",
    "Jsonutils.Props.C81_edit",
    "Jsonutils.Props.C81_frame",
    "Jsonutils.Props.C81_overwrites",
    "Jsonutils.Props.C81_true",
    "Jsonutils.Props.C81_own_document"
   ],
   "note": "Not in this model: interface{}, Go arrays, maps with keys other than strings, JSONDict etc. by value. C81_content, C81_shares and C81_edit are about variables whose *JSONString, *JSONInt, *JSONBool parts are nil; C81_shares and C81_edit about types without deprecated-by fields, C81_content also about those with deprecated-by fields in struct types without such parts; C81_frame, C81_overwrites, C81_true, C81_own_document show what happens otherwise."
  },
  {
   "property": "C82",
   "status": "proved",
   "theorems": [
    "Jsonutils.Props.C82_content",
    "Jsonutils.Props.C82_shares",
    "Jsonutils.Props.C82_fresh",
    "Jsonutils.Props.C82_edit",
    "Jsonutils.Props.C82_apart"
   ],
   "note": "Not in this model: interface{}, Go arrays, maps with keys other than strings, JSONDict etc. by value, MarshalJSON methods, cyclic values."
  },
  {
   "property": "C83",
   "status": "proved",
   "theorems": [
    "Jsonutils.Props.C83_nested",
    "Jsonutils.Props.C83_get",
    "Jsonutils.Props.C83_numbers"
   ],
   "note": "Exact: both directions for values and for dictionaries. Keys with numbers behind the first dot: round trips in C28, witnesses here."
  },
  {
   "property": "C84",
   "status": "proved",
   "theorems": [
    "Jsonutils.Props.C84_parse",
    "Jsonutils.Props.C84_depth",
    "Jsonutils.Props.C84_string",
    "Jsonutils.Props.C84_rewrite",
    "Jsonutils.Props.C84_float",
    "Jsonutils.Props.C84_int",
    "Jsonutils.Props.C84_pretty",
    "Jsonutils.Props.C84_pretty_quadratic",
    "Jsonutils.Props.C84_marshal_doubles"
   ],
   "note": "Documents for C84_string and C84_pretty: integers and node ids are int64, floats are doubles, the reserved key is not used (all parsed documents are such)."
  },
  {
   "property": "C85",
   "status": "proved",
   "theorems": [
    "Jsonutils.Props.C85_values",
    "Jsonutils.Props.C85_values_copy",
    "Jsonutils.Props.C85_null_differs"
   ],
   "note": "The two machines are Spec/Owner. Values written in programs are well-formed documents without references. Update with a receiver and operand at different variables; an operand that is given away leaves its variable empty (C79_shared shows what happens otherwise)."
  },
  {
   "property": "C86",
   "status": "proved",
   "theorems": [
    "Jsonutils.Props.C86_refines",
    "Jsonutils.Props.C86_panics",
    "Jsonutils.Props.C86_never",
    "Jsonutils.Props.C86_query",
    "Jsonutils.Props.C86_cases",
    "Jsonutils.Props.C86_fold",
    "Jsonutils.Props.C86_shallow"
   ],
   "note": "Same memory model as C77. When String panics is C77; the layouts of GetTime are parameters, as in C12."
  },
  {
   "property": "C87",
   "status": "proved",
   "theorems": [
    "Jsonutils.Props.C87_copy_shares",
    "Jsonutils.Props.C87_independent",
    "Jsonutils.Props.C87_sources"
   ],
   "note": "types as for C38; documents without references, for C87_independent also without node ids"
  },
  {
   "property": "C88",
   "status": "proved",
   "theorems": [
    "Jsonutils.Props.C88_marshal_all",
    "Jsonutils.Props.C88_marshal",
    "Jsonutils.Props.C88_interface",
    "Jsonutils.Props.C88_equals",
    "Jsonutils.Props.C88_identity",
    "Jsonutils.Props.C88_no_nulls",
    "Jsonutils.Props.C88_same",
    "Jsonutils.Props.C88_float32"
   ],
   "note": ""
  },
  {
   "property": "C89",
   "status": "proved",
   "theorems": [
    "Jsonutils.Props.C89_fields",
    "Jsonutils.Props.C89_only",
    "Jsonutils.Props.C89_allocated",
    "Jsonutils.Props.C89_allocated_error",
    "Jsonutils.Props.C89_no_write_lost"
   ],
   "note": "Which embedded pointer a field belongs to (Parent) is determined by reflectutils and a parameter here; a pointer embedded in an embedded pointer is set or not by itself."
  },
  {
   "property": "C90",
   "status": "proved",
   "theorems": [
    "Jsonutils.Props.C90_fed",
    "Jsonutils.Props.C90_last",
    "Jsonutils.Props.C90_alone",
    "Jsonutils.Props.C90_old_wins"
   ],
   "note": "Struct types where one key leads to two different names of the same field are excluded (OneName); an empty text leaves a number unchanged and is excluded from C90_last. What happens if errors occur: C53."
  }
 ]
}