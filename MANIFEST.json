{
 "claims": [
  {
   "property": "C01",
   "status": "proved",
   "theorems": [
    "Gjson.C01_valid_iff_rfc8259",
    "Gjson.C01_valid_false_iff"
   ],
   "note": "valid() accepts exactly the RFC 8259 texts, for all byte strings."
  },
  {
   "property": "C02",
   "status": "proved",
   "theorems": [
    "Gjson.C02_parse_total",
    "Gjson.C02_valid_total"
   ],
   "note": "valid and parse never fail, for all byte strings."
  },
  {
   "property": "C03",
   "status": "proved",
   "theorems": [
    "Gjson.C03_get_terminates",
    "Gjson.C03_recursion_bounded",
    "Gjson.C03_value_get_terminates",
    "Gjson.C03_each_terminates"
   ],
   "note": "No loop and no nesting of get runs out of fuel, for all texts and paths; how deep the other recursive functions go is C52."
  },
  {
   "property": "C04",
   "status": "partial",
   "theorems": [
    "Gjson.C04_no_oob",
    "Gjson.C04_get_partial",
    "Gjson.C04_value_get_partial",
    "Gjson.C04_only_panic",
    "Gjson.C04_get_words_partial",
    "Gjson.C04_false"
   ],
   "note": "No out-of-bounds read on any input. No panic unless the path has, in this order, '#(', '@pretty:', '\"prefix\"' (or a backslash) and '~' (or a backslash), that is a query that compares by truth what @pretty makes with a prefix; there it is false, refuted with a witness."
  },
  {
   "property": "C05",
   "status": "partial",
   "theorems": [
    "Gjson.C05_parse_text_partial",
    "Gjson.C05_get_partial",
    "Gjson.C05_get_text_partial",
    "Gjson.C05_get_pretty_partial",
    "Gjson.C05_get_valid_partial",
    "Gjson.C05_value_get_partial",
    "Gjson.C05_each",
    "Gjson.C05_array",
    "Gjson.C05_get_false",
    "Gjson.C05_parse_partial",
    "Gjson.C05_false_unclosed"
   ],
   "note": "True for every value from parse, get, each, array that exists or is not a String, for all results when the text does not start with an unclosed string and the path has no @pretty, and for all results on valid JSON unless the path has an @pretty whose argument may have a member 'prefix'; false otherwise, refuted with witnesses."
  },
  {
   "property": "C06",
   "status": "partial",
   "theorems": [
    "Gjson.C06_member",
    "Gjson.C06_missing",
    "Gjson.C06_member_partial",
    "Gjson.C06_missing_partial",
    "Gjson.C06_false"
   ],
   "note": "Holds for every valid object with keys as the library decodes them (C06_member, C06_missing); with keys as RFC 8259 decodes them it is false for surrogate pairs of even planes (C06_false) and proved for all others."
  },
  {
   "property": "C07",
   "status": "proved",
   "theorems": [
    "Gjson.C07_element",
    "Gjson.C07_index_forms",
    "Gjson.C07_no_index",
    "Gjson.C07_beyond"
   ],
   "note": "Also for the other index spellings the library accepts, and keys that are no index."
  },
  {
   "property": "C08",
   "status": "proved",
   "theorems": [
    "Gjson.C08_count"
   ],
   "note": ""
  },
  {
   "property": "C09",
   "status": "partial",
   "theorems": [
    "Gjson.C09_resolves",
    "Gjson.C09_resolves_partial"
   ],
   "note": "As C06: holds fully with the library's key decoding; the RFC form needs keys outside the even supplementary planes."
  },
  {
   "property": "C10",
   "status": "partial",
   "theorems": [
    "Gjson.C10_false",
    "Gjson.C10_unresolved_partial",
    "Gjson.C10_scalar",
    "Gjson.C10_search_total",
    "Gjson.C10_exact",
    "Gjson.C10_exact_plain",
    "Gjson.C10_inside",
    "Gjson.C10_unnested_partial"
   ],
   "note": "False (C10_false: search continues inside a nested value). C10_exact and C10_exact_plain say what is found, for all documents and paths (Spec.Find); the claim follows for documents in which the keys of the path are not nested (C10_unnested_partial), besides single components, scalars, and texts where each key occurs at most once without backslashes."
  },
  {
   "property": "C11",
   "status": "partial",
   "theorems": [
    "Gjson.C11_false",
    "Gjson.C11_parse_get",
    "Gjson.C11_dot_partial",
    "Gjson.C11_parse_any",
    "Gjson.C11_unnested_partial",
    "Gjson.C11_unnested_plain_partial"
   ],
   "note": "False for a.b against get(a).get(b) (C11_false); proved when a is not a nested key (C11_unnested_partial), a.b resolves, a is missing, a is a scalar, or the text is an array. parse(text).get(a).get(b) = get(a).get(b) proved for all valid texts."
  },
  {
   "property": "C12",
   "status": "proved",
   "theorems": [
    "Gjson.C12_pipe",
    "Gjson.C12_pipe_plain",
    "Gjson.C12_value_get",
    "Gjson.C12_pipe_text",
    "Gjson.C12_pipe_any",
    "Gjson.C12_pipe_any_text",
    "Gjson.C12_pipe_lines",
    "Gjson.C12_pipe_empty",
    "Gjson.C12_pipeline",
    "Gjson.C12_mismatched"
   ],
   "note": "As claimed for plain keys; also for every dot path of components of any kind before the pipe, any number of pipes, and JSON Lines."
  },
  {
   "property": "C13",
   "status": "proved",
   "theorems": [
    "Gjson.C13_map_any",
    "Gjson.C13_results",
    "Gjson.C13_map",
    "Gjson.C13_map_pipe"
   ],
   "note": "For every valid array or JSON Lines document and every path of dot-separated components of any kind: '#.path' is the array of the results that exist, in order. Also followed by '|rest'."
  },
  {
   "property": "C14",
   "status": "proved",
   "theorems": [
    "Gjson.C14_all_map_any",
    "Gjson.C14_decided",
    "Gjson.C14_test",
    "Gjson.C14_first",
    "Gjson.C14_first_rest",
    "Gjson.C14_all",
    "Gjson.C14_all_pipe",
    "Gjson.C14_all_map"
   ],
   "note": "For every query whose left side is a path of any kind (also nested queries, multipaths and modifiers other than @pretty; operators only in parentheses or escaped, no parentheses in quoted strings) and whose right side is any text with balanced brackets; any spacing; all operators: decided on each element, first match, all matches, '.rest'/'|rest' after it and '#.path' after it. What the test means is C15."
  },
  {
   "property": "C15",
   "status": "partial",
   "theorems": [
    "Gjson.C15_string_partial",
    "Gjson.C15_string_exact",
    "Gjson.C15_string",
    "Gjson.C15_number",
    "Gjson.C15_integer",
    "Gjson.C15_complement_string",
    "Gjson.C15_complement_number",
    "Gjson.C15_bool_partial",
    "Gjson.C15_bool_false",
    "Gjson.C15_missing_partial",
    "Gjson.C15_missing_false",
    "Gjson.C15_empty_false",
    "Gjson.C15_other",
    "Gjson.C15_bool_exact"
   ],
   "note": "Strings, numbers (exact for integers up to 2^53), complementary operators and missing values are proved as claimed. False in corners, shown by witnesses: true<=true and false>=false do not hold, the literal \"\" is not unquoted, a missing value matches ~false; '%' inherits the escaped question mark of C16."
  },
  {
   "property": "C16",
   "status": "partial",
   "theorems": [
    "Gjson.C16_pmatch_code",
    "Gjson.C16_pmatch_partial",
    "Gjson.C16_false",
    "Gjson.C16_lone_backslash",
    "Gjson.C16_get_partial",
    "Gjson.C16_get_missing_partial",
    "Gjson.C16_get_exact",
    "Gjson.C16_get_missing_exact"
   ],
   "note": "False for escaped question marks (C16_false); proved for all other patterns, and the exact behaviour for all patterns (C16_pmatch_code; in lookups C16_get_exact, C16_get_missing_exact)."
  },
  {
   "property": "C17",
   "status": "partial",
   "theorems": [
    "Gjson.C17_escaped_partial",
    "Gjson.C17_escaped_missing_partial",
    "Gjson.C17_escapeKey_partial",
    "Gjson.C17_false",
    "Gjson.C17_exact",
    "Gjson.C17_exact_missing"
   ],
   "note": "False for keys containing '?' (C17_false); proved for all other keys, and what the escaped key finds for all keys (C17_exact, C17_exact_missing)."
  },
  {
   "property": "C18",
   "status": "proved",
   "theorems": [
    "Gjson.C18_line",
    "Gjson.C18_beyond",
    "Gjson.C18_count",
    "Gjson.C18_map"
   ],
   "note": "For every JSON Lines text and index below 2^63; also '..#' and '..#.path'."
  },
  {
   "property": "C19",
   "status": "proved",
   "theorems": [
    "Gjson.C19_piece",
    "Gjson.C19_piece_plain"
   ],
   "note": "Also for components with wildcards and escapes."
  },
  {
   "property": "C20",
   "status": "proved",
   "theorems": [
    "Gjson.C20_exists_iff_json",
    "Gjson.C20_default_neutral",
    "Gjson.C20_each_missing",
    "Gjson.C20_array_missing"
   ],
   "note": ""
  },
  {
   "property": "C21",
   "status": "proved",
   "theorems": [
    "Gjson.C21_unescape_escape"
   ],
   "note": ""
  },
  {
   "property": "C22",
   "status": "proved",
   "theorems": [
    "Gjson.C22_escape_valid",
    "Gjson.C22_parse_escape",
    "Gjson.C22_element_escape"
   ],
   "note": "valid(), parse() and array() forms."
  },
  {
   "property": "C23",
   "status": "partial",
   "theorems": [
    "Gjson.C23_str_decodes_partial",
    "Gjson.C23_unescape_decodes_partial",
    "Gjson.C23_bmp_covered",
    "Gjson.C23_false_even_plane",
    "Gjson.C23_even_plane_wrong"
   ],
   "note": "True for the basic plane and odd planes; false for even planes (util.rs precedence bug), refuted with a witness and characterised exactly."
  },
  {
   "property": "C24",
   "status": "proved",
   "theorems": [
    "Gjson.C24_i64_number",
    "Gjson.C24_i64_string",
    "Gjson.C24_u64_number",
    "Gjson.C24_u64_string",
    "Gjson.C24_parse_i64",
    "Gjson.C24_parse_u64"
   ],
   "note": "Whole i64 and u64 range, as number and inside a string, for any value and through parse."
  },
  {
   "property": "C25",
   "status": "partial",
   "theorems": [
    "Gjson.C25_saturate_partial",
    "Gjson.C25_i32_partial",
    "Gjson.C25_false_i32",
    "Gjson.C25_range"
   ],
   "note": "i16, i8, u32, u16, u8 saturate; i32 is characterised exactly and shown wrong from 2^31 on (witness)."
  },
  {
   "property": "C26",
   "status": "proved",
   "theorems": [
    "Gjson.C26_get_comparable",
    "Gjson.C26_total_order",
    "Gjson.C26_eq",
    "Gjson.C26_kind_first",
    "Gjson.C26_strings",
    "Gjson.C26_numbers",
    "Gjson.C26_others"
   ],
   "note": "For values whose string content is defined and whose number is not NaN; every value that parse, get, each or array finds is such (C05, C26_get_comparable)."
  },
  {
   "property": "C27",
   "status": "proved",
   "theorems": [
    "Gjson.C27_each_value",
    "Gjson.C27_array_each",
    "Gjson.C27_covers"
   ],
   "note": "For parse and for any Value of kind Array."
  },
  {
   "property": "C28",
   "status": "proved",
   "theorems": [
    "Gjson.C28_each_value",
    "Gjson.C28_object_each",
    "Gjson.C28_covers"
   ],
   "note": "For parse and for any Value of kind Object."
  },
  {
   "property": "C29",
   "status": "proved",
   "theorems": [
    "Gjson.C29_array",
    "Gjson.C29_object",
    "Gjson.C29_other",
    "Gjson.C29_twice_array",
    "Gjson.C29_twice_object"
   ],
   "note": "Arrays, objects and other values; twice for arrays and objects."
  },
  {
   "property": "C30",
   "status": "proved",
   "theorems": [
    "Gjson.C30_idempotent",
    "Gjson.C30_tokens",
    "Gjson.C30_document",
    "Gjson.C30_modifier"
   ],
   "note": "Every byte string for idempotence, every JSON text for the rest; also through @ugly."
  },
  {
   "property": "C31",
   "status": "proved",
   "theorems": [
    "Gjson.C31_ugly",
    "Gjson.C31_document",
    "Gjson.C31_modifier",
    "Gjson.C31_modifier_bare"
   ],
   "note": "Every JSON text of any depth, every width, whitespace prefix and indent; also through @pretty with any such argument."
  },
  {
   "property": "C32",
   "status": "partial",
   "theorems": [
    "Gjson.C32_flatten_partial",
    "Gjson.C32_exact",
    "Gjson.C32_flatten_bare_partial",
    "Gjson.C32_deep",
    "Gjson.C32_deep_call",
    "Gjson.C32_other",
    "Gjson.C32_covers",
    "Gjson.C32_deep_covers",
    "Gjson.C32_false"
   ],
   "note": "Deep flattening and non-arrays hold in full. One-level flattening is proved unless an element is an empty array written with whitespace inside; for those the output need not be JSON (C32_false). C32_exact has the exact output for every array."
  },
  {
   "property": "C33",
   "status": "partial",
   "theorems": [
    "Gjson.C33_merge",
    "Gjson.C33_merge_partial",
    "Gjson.C33_meaning",
    "Gjson.C33_preserve_partial",
    "Gjson.C33_preserve_exact",
    "Gjson.C33_preserve_call_partial",
    "Gjson.C33_covers",
    "Gjson.C33_other",
    "Gjson.C33_false"
   ],
   "note": "Merging holds in full with the key contents as the library decodes them (C33_merge, C33_meaning); with RFC 8259 key contents except for surrogate pairs of even planes. preserve is proved when no object is empty; with an empty object the output need not be JSON (C33_false). C33_preserve_exact has the exact output for every array."
  },
  {
   "property": "C34",
   "status": "proved",
   "theorems": [
    "Gjson.C34_this",
    "Gjson.C34_this_json",
    "Gjson.C34_valid",
    "Gjson.C34_invalid",
    "Gjson.C34_unknown",
    "Gjson.C34_rest"
   ],
   "note": "For every text and every modifier call, bare or with a plain or JSON argument; also what follows a modifier after '.' or '|'."
  },
  {
   "property": "C35",
   "status": "proved",
   "theorems": [
    "Gjson.C35_array",
    "Gjson.C35_object",
    "Gjson.C35_array_rest",
    "Gjson.C35_object_rest",
    "Gjson.C35_array_isArray",
    "Gjson.C35_object_isObject",
    "Gjson.C35_covers",
    "Gjson.C35_empty"
   ],
   "note": "For every non-empty list of sub paths in the grammar SubPath (brackets balanced, no comma or colon outside them) and every text; keys given, derived or '_'. '[]' means one empty sub path (C35_empty). Panics of the parts are passed on."
  },
  {
   "property": "C36",
   "status": "partial",
   "theorems": [
    "Gjson.C36_ascii_partial",
    "Gjson.C36_means_partial",
    "Gjson.C36_route_partial",
    "Gjson.C36_lines_route_partial",
    "Gjson.C36_utf8_partial",
    "Gjson.C36_lines_partial",
    "Gjson.C36_str_partial",
    "Gjson.C36_any_partial",
    "Gjson.C36_each_partial",
    "Gjson.C36_false",
    "Gjson.C36_pretty_false",
    "Gjson.C36_tokens_partial"
   ],
   "note": "Proved for JSON texts and all other texts of whole tokens, with all paths and modifiers, unless @pretty is asked for a prefix or indent (C36_tokens). Proved for JSON texts and JSON Lines and all paths of the grammar Spec.Route, with all modifiers, leaving out options that make them write something else than JSON (C36_route, C36_lines_route), and wherever the rules of Spec.Means give a result, with any options (C36_means). For every UTF-8 text, JSON or not, paths of keys, patterns and indexes and what each visits are UTF-8 unless taken for a literal name (json) or cut by a \\u escape (str). For every ASCII text, JSON or not, and every ASCII path with any modifiers, except \\u escapes in options of @pretty (C36_ascii_partial). False in general: C36_false (a text that is not JSON) and C36_pretty_false (a JSON text, @pretty inserting text)."
  },
  {
   "property": "C37",
   "status": "partial",
   "theorems": [
    "Gjson.C37_unescape_utf8_partial",
    "Gjson.C37_false",
    "Gjson.C37_exact"
   ],
   "note": "True for JSON string literals; false for other arguments, refuted with a witness. C37_exact says for which arguments it holds."
  },
  {
   "property": "C38",
   "status": "partial",
   "theorems": [
    "Gjson.C38_order",
    "Gjson.C38_exact",
    "Gjson.C38_same_members",
    "Gjson.C38_sorted_partial",
    "Gjson.C38_modifier_exact",
    "Gjson.C38_modifier_partial",
    "Gjson.C38_modifier_call_partial",
    "Gjson.C38_false"
   ],
   "note": "True for documents nested less than 500 deep; false beyond (the depth limit stops sorting in all enclosing objects), refuted with a witness. C38_exact says what every document becomes, at any depth; C38_same_members that only the order of members changes."
  },
  {
   "property": "C39",
   "status": "proved",
   "theorems": [
    "Gjson.C39_bool"
   ],
   "note": ""
  },
  {
   "property": "C40",
   "status": "proved",
   "theorems": [
    "Gjson.C40_parse",
    "Gjson.C40_get",
    "Gjson.C40_get_any"
   ],
   "note": "valid, parse, and get for all paths that do not begin with a modifier, a multipath or '..'."
  },
  {
   "property": "C41",
   "status": "proved",
   "theorems": [
    "Gjson.C41_route",
    "Gjson.C41_lines_route",
    "Gjson.C41_value",
    "Gjson.C41_lines",
    "Gjson.C41_modifiers",
    "Gjson.C41_jsonText",
    "Gjson.C41_needs_tame",
    "Gjson.C41_scalar"
   ],
   "note": "With the restriction on modifiers in the statement; C41_needs_tame shows that it is needed. C41_route and C41_lines_route have the same with @flatten, @join and arguments of @pretty in paths of the grammar Spec.Route, which leaves out options that make them write something else than JSON. C41_scalar has it for all modifiers for results that are no arrays or objects."
  },
  {
   "property": "C42",
   "status": "proved",
   "theorems": [
    "Gjson.C42_covers",
    "Gjson.C42_f64",
    "Gjson.C42_f64_string",
    "Gjson.C42_parse",
    "Gjson.C42_unique",
    "Gjson.C42_monotone",
    "Gjson.C42_cmp",
    "Gjson.C42_query",
    "Gjson.C42_query_sound",
    "Gjson.C42_i64",
    "Gjson.C42_u64",
    "Gjson.C42_exact",
    "Gjson.C42_f32",
    "Gjson.C42_f32_twice"
   ],
   "note": "C42_f32_twice shows why f32() is only nearest to f64(), as the statement says."
  },
  {
   "property": "C43",
   "status": "proved",
   "theorems": [
    "Gjson.C43_layout",
    "Gjson.C43_laid",
    "Gjson.C43_default",
    "Gjson.C43_whitespace",
    "Gjson.C43_idempotent",
    "Gjson.C43_modifier"
   ],
   "note": "C43_laid: exact output for every text and all options. C43_layout: the same with a simpler layout function for nesting below 500. The column count differs by one between first and later elements, see Doc.layout; what happens at 500 is Doc.cut."
  },
  {
   "property": "C44",
   "status": "proved",
   "theorems": [
    "Gjson.C44_call",
    "Gjson.C44_scalar",
    "Gjson.C44_hash",
    "Gjson.C44_all",
    "Gjson.C44_first",
    "Gjson.C44_index",
    "Gjson.C44_plain",
    "Gjson.C44_unnested",
    "Gjson.C44_nested"
   ],
   "note": "Conditions as stated. With nested or repeated keys a dot may go on searching after a query that holds for no element (C44_nested)."
  },
  {
   "property": "C45",
   "status": "proved",
   "theorems": [
    "Gjson.C45_decide",
    "Gjson.C45_equal",
    "Gjson.C45_tilde_any",
    "Gjson.C45_truth_defined",
    "Gjson.C45_split",
    "Gjson.C45_missing"
   ],
   "note": "As stated."
  },
  {
   "property": "C46",
   "status": "proved",
   "theorems": [
    "Gjson.C46_determined",
    "Gjson.C46_others",
    "Gjson.C46_number",
    "Gjson.C46_string"
   ],
   "note": "As stated; the number parsers of the standard library are modelled, not part of the repository."
  },
  {
   "property": "C47",
   "status": "proved",
   "theorems": [
    "Gjson.C47_shown",
    "Gjson.C47_rfc"
   ],
   "note": "As stated. The rule for even planes is the bug recorded under C23."
  },
  {
   "property": "C48",
   "status": "proved",
   "theorems": [
    "Gjson.C48_means",
    "Gjson.C48_determined",
    "Gjson.C48_same",
    "Gjson.C48_defined",
    "Gjson.C48_height",
    "Gjson.C48_defined_lines",
    "Gjson.C48_exact"
   ],
   "note": "C48_means: get obeys every rule of Spec.Means, for all texts. C48_determined: the rules give at most one result. C48_defined: for every JSON text and every path of the grammar Spec.Route they give one, a JSON value or nothing (C48_defined_lines for JSON Lines); C48_exact: there the rules are exactly what get does. C48_same: same meaning, same result. C48_height: results are not nested deeper than the text by more than the length of the path."
  },
  {
   "property": "C49",
   "status": "proved",
   "theorems": [
    "Gjson.C49_space",
    "Gjson.C49_lines",
    "Gjson.C49_ugly",
    "Gjson.C49_pretty",
    "Gjson.C49_flatten"
   ],
   "note": "C49_space for any two JSON texts with the same tokens and every path of Spec.Route; C49_ugly and C49_pretty are instances; C49_lines for JSON Lines. C49_flatten is the counterexample for @flatten without deep, which the statement leaves out."
  },
  {
   "property": "C50",
   "status": "proved",
   "theorems": [
    "Gjson.C50_same",
    "Gjson.C50_only",
    "Gjson.C50_iff",
    "Gjson.C50_modifier",
    "Gjson.C50_deep"
   ],
   "note": "C50_iff is the full statement; C50_same for any prefix and indent; C50_only at any depth; C50_modifier for @pretty; C50_deep is the counterexample at depth 500, which the statement leaves out."
  },
  {
   "property": "C51",
   "status": "proved",
   "theorems": [
    "Gjson.C51_order",
    "Gjson.C51_order_plain",
    "Gjson.C51_alias",
    "Gjson.C51_pattern"
   ],
   "note": "C51_order for all selectors without wildcards (Spec.Names), C51_order_plain for plain keys; C51_alias and C51_pattern are the counterexamples for what the statement leaves out."
  },
  {
   "property": "C52",
   "status": "proved",
   "theorems": [
    "Gjson.C52_valid_exact",
    "Gjson.C52_valid_any_text",
    "Gjson.C52_valid_unbounded",
    "Gjson.C52_pretty_limit",
    "Gjson.C52_pretty_exact",
    "Gjson.C52_flatten_exact"
   ],
   "note": "The number of calls active at once; how many bytes of stack a call takes is not modelled."
  },
  {
   "property": "C53",
   "status": "proved",
   "theorems": [
    "Gjson.C53_bytes",
    "Gjson.C53_high",
    "Gjson.C53_ascii",
    "Gjson.C53_escape_needed",
    "Gjson.C53_pretty",
    "Gjson.C53_ugly"
   ],
   "note": "A @pretty whose options have escapes is left out, as the statement says; C53_escape_needed shows why. For bytes outside ASCII only \\u escapes are left out (C53_high)."
  },
  {
   "property": "C54",
   "status": "proved",
   "theorems": [
    "Gjson.C54_same_results",
    "Gjson.C54_calls_bound",
    "Gjson.C54_counted",
    "Gjson.C54_polynomial",
    "Gjson.C54_one_component",
    "Gjson.C54_attained",
    "Gjson.C54_exponential"
   ],
   "note": "Counts the calls of get_obj and get_arr of one search; calls made when get is called again for the rest of a path or for elements of an array are counted there."
  },
  {
   "property": "C55",
   "status": "proved",
   "theorems": [
    "Gjson.C55_path_bound",
    "Gjson.C55_limit",
    "Gjson.C55_attained"
   ],
   "note": "Counts the calls of get and get_obj; the functions between them (proc_value, get_arr, for_each and its closures, the modifiers) add a fixed number of frames each, except valid, pretty and @flatten, whose own nesting is C52."
  },
  {
   "property": "C56",
   "status": "proved",
   "theorems": [
    "Gjson.C56_reached",
    "Gjson.C56_plain",
    "Gjson.C56_cut",
    "Gjson.C56_after",
    "Gjson.C56_open_element",
    "Gjson.C56_number_goes_on"
   ],
   "note": "For paths that lead to a value; the cases outside are shown by C56_open_element and C56_number_goes_on."
  },
  {
   "property": "C57",
   "status": "proved",
   "theorems": [
    "Gjson.C57_result_bound",
    "Gjson.C57_continued",
    "Gjson.C57_string",
    "Gjson.C57_modifier",
    "Gjson.C57_ugly",
    "Gjson.C57_pretty",
    "Gjson.C57_pretty_default",
    "Gjson.C57_growth"
   ],
   "note": "The factor 8 per byte of the path is not tight; C57_growth shows that some exponential growth is needed."
  },
  {
   "property": "C58",
   "status": "proved",
   "theorems": [
    "Gjson.C58_leading",
    "Gjson.C58_formats",
    "Gjson.C58_scalar",
    "Gjson.C58_parse_get",
    "Gjson.C58_parse_get_open",
    "Gjson.C58_parse_get_limit"
   ],
   "note": "For texts that neither are JSON nor open an array or object parse(text).get(path) may differ from get(text, path) (C58_parse_get_limit)."
  },
  {
   "property": "C59",
   "status": "proved",
   "theorems": [
    "Gjson.C59_tokens",
    "Gjson.C59_json",
    "Gjson.C59_lines",
    "Gjson.C59_scalar",
    "Gjson.C59_formats",
    "Gjson.C59_needed"
   ],
   "note": "JSON Lines: only where no line is a number by itself (C59_lines); C59_needed shows that @ugly makes one number of two otherwise."
  },
  {
   "property": "C60",
   "status": "proved",
   "theorems": [
    "Gjson.C60_count",
    "Gjson.C60_index",
    "Gjson.C60_index_rest",
    "Gjson.C60_map",
    "Gjson.C60_first",
    "Gjson.C60_all",
    "Gjson.C60_determined",
    "Gjson.C60_determined_multi",
    "Gjson.C60_lines",
    "Gjson.C60_lines_needed"
   ],
   "note": "All array values, of any text."
  },
  {
   "property": "C61",
   "status": "proved",
   "theorems": [
    "Gjson.C61_place",
    "Gjson.C61_text",
    "Gjson.C61_set",
    "Gjson.C61_others",
    "Gjson.C61_edit",
    "Gjson.C61_nowhere",
    "Gjson.C61_add_member",
    "Gjson.C61_add_elem",
    "Gjson.C61_add",
    "Gjson.C61_added_member",
    "Gjson.C61_added_elem",
    "Gjson.C61_remove_member",
    "Gjson.C61_splice"
   ],
   "note": "The other path must lead to something; C61_nowhere shows why (search does not stop at the first key that fails, see C10)."
  },
  {
   "property": "C62",
   "status": "proved",
   "theorems": [
    "Gjson.C62_text",
    "Gjson.C62_kind",
    "Gjson.C62_first",
    "Gjson.C62_same",
    "Gjson.C62_missing"
   ],
   "note": "Positions in the text (private field index) are not compared."
  },
  {
   "property": "C63",
   "status": "proved",
   "theorems": [
    "Gjson.C63_get",
    "Gjson.C63_key",
    "Gjson.C63_reached",
    "Gjson.C63_document",
    "Gjson.C63_dotted",
    "Gjson.C63_needed"
   ],
   "note": "C63_needed shows why the text must be JSON. Question marks in keys are left out for the reason given under C17."
  },
  {
   "property": "C64",
   "status": "proved",
   "theorems": [
    "Gjson.C64_exact",
    "Gjson.C64_one",
    "Gjson.C64_rejoin",
    "Gjson.C64_get",
    "Gjson.C64_dropped",
    "Gjson.C64_malformed"
   ],
   "note": "The flags for backslashes and wildcards and the place of the argument of a modifier are part of the statement."
  },
  {
   "property": "C65",
   "status": "proved",
   "theorems": [
    "Gjson.C65_exact",
    "Gjson.C65_one",
    "Gjson.C65_rejoin",
    "Gjson.C65_get"
   ],
   "note": "All component texts (C65_exact, C65_one), what is between the parentheses (C65_rejoin), and the effect on get (C65_get). On objects a query component is a key, shown by an example."
  },
  {
   "property": "C66",
   "status": "proved",
   "theorems": [
    "Gjson.C66_group",
    "Gjson.C66_one",
    "Gjson.C66_index",
    "Gjson.C66_count",
    "Gjson.C66_map",
    "Gjson.C66_first",
    "Gjson.C66_all",
    "Gjson.C66_all_map"
   ],
   "note": "The group (C66_group, C66_one), indexes (C66_index), counts (C66_count), #. (C66_map), first match (C66_first), all matches (C66_all, C66_all_map), for every path text. The results of the group and of the query's left side on the elements are hypotheses of the form 'get gives this', so they are as total as get itself (it returns for every path shorter than the recursion bound of C04)."
  },
  {
   "property": "C67",
   "status": "proved",
   "theorems": [
    "Gjson.C67_found",
    "Gjson.C67_nothing",
    "Gjson.C67_total",
    "Gjson.C67_one"
   ],
   "note": "What get returns for an outcome of the search (C67_found, C67_nothing), that there is one (C67_total, for the paths on which get does not panic by C04), and no more than one (C67_one)."
  },
  {
   "property": "C68",
   "status": "proved",
   "theorems": [
    "Gjson.C68_entries",
    "Gjson.C68_each",
    "Gjson.C68_call",
    "Gjson.C68_modifier",
    "Gjson.C68_unknown",
    "Gjson.C68_this",
    "Gjson.C68_valid",
    "Gjson.C68_ignored",
    "Gjson.C68_array",
    "Gjson.C68_object",
    "Gjson.C68_wrong",
    "Gjson.C68_kinds"
   ],
   "note": "How entries and calls are cut (C68_entries, C68_each, C68_call), that every modifier and multipath is of one of the kinds treated (C68_kinds), and what each gives."
  },
  {
   "property": "C69",
   "status": "proved",
   "theorems": [
    "Gjson.C69_unescape",
    "Gjson.C69_unescape_other",
    "Gjson.C69_one",
    "Gjson.C69_literal",
    "Gjson.C69_str",
    "Gjson.C69_i64",
    "Gjson.C69_u64",
    "Gjson.C69_f64",
    "Gjson.C69_bool",
    "Gjson.C69_total"
   ],
   "note": "C69_unescape for any bytes between quotes, C69_unescape_other for the rest, C69_literal for the agreement with C47, one theorem per accessor for values from any text."
  },
  {
   "property": "C70",
   "status": "proved",
   "theorems": [
    "Gjson.C70_query",
    "Gjson.C70_only",
    "Gjson.C70_one",
    "Gjson.C70_holds"
   ],
   "note": "C70_query is an equivalence for every value but a missing one that is an unclosed string (which can panic behind ~); C70_only covers that one too. C70_holds applies it to queries in paths (C66, C67)."
  },
  {
   "property": "C71",
   "status": "proved",
   "theorems": [
    "Gjson.C71_sound",
    "Gjson.C71_one",
    "Gjson.C71_total",
    "Gjson.C71_total_lines",
    "Gjson.C71_exact",
    "Gjson.C71_exact_lines"
   ],
   "note": "C71_sound and C71_one hold for every document text and path. C71_total, C71_exact and their JSON Lines forms are for paths without @flatten, @join: and @pretty: anywhere (Mild): these can make something else than JSON of JSON (C32, C33, C36)."
  },
  {
   "property": "C72",
   "status": "proved",
   "theorems": [
    "Gjson.C72_total_harmless",
    "Gjson.C72_total_harmless_lines",
    "Gjson.C72_total_orderly",
    "Gjson.C72_total_orderly_lines",
    "Gjson.C72_mild",
    "Gjson.C72_bare",
    "Gjson.C72_ugly",
    "Gjson.C72_pretty",
    "Gjson.C72_exact_harmless",
    "Gjson.C72_exact_orderly",
    "Gjson.C72_exact_harmless_lines",
    "Gjson.C72_exact_orderly_lines"
   ],
   "note": "Exact agreement of the relation of C71 with get for every JSON text and every path whose modifiers make JSON of all JSON (C72_exact_harmless), and for tidy documents also with @flatten (C72_exact_orderly); ugly and pretty write tidy values."
  },
  {
   "property": "C73",
   "status": "proved",
   "theorems": [
    "Gjson.C73_parse",
    "Gjson.C73_array",
    "Gjson.C73_pairs",
    "Gjson.C73_one",
    "Gjson.C73_modifier",
    "Gjson.C73_call"
   ],
   "note": "@pretty in texts that are not JSON is left out of the statement."
  },
  {
   "property": "C74",
   "status": "proved",
   "theorems": [
    "Gjson.C74_sound",
    "Gjson.C74_one",
    "Gjson.C74_total",
    "Gjson.C74_exact",
    "Gjson.C74_plain",
    "Gjson.C74_mods",
    "Gjson.C74_text",
    "Gjson.C74_json",
    "Gjson.C74_open_string"
   ],
   "note": "C74_plain: any text, any path without @. C74_mods and C74_exact: with modifiers other than @pretty, any text that does not begin with an open string; C74_open_string shows what is different there, and C74_text tells the text of the result for every text."
  },
  {
   "property": "C75",
   "status": "proved",
   "theorems": [
    "Gjson.C75_get",
    "Gjson.C75_plain",
    "Gjson.C75_mods",
    "Gjson.C75_value",
    "Gjson.C75_then",
    "Gjson.C75_parse",
    "Gjson.C75_array",
    "Gjson.C75_pairs",
    "Gjson.C75_each_array",
    "Gjson.C75_each_object",
    "Gjson.C75_narrow",
    "Gjson.C75_f32",
    "Gjson.C75_open_string"
   ],
   "note": "C75_get, C75_plain, C75_mods, C75_value, C75_then, C75_parse, C75_array, C75_pairs. Texts that begin with an open string are left out for parse and for paths with modifiers (C75_open_string shows that it is different there)."
  },
  {
   "property": "C76",
   "status": "proved",
   "theorems": [
    "Gjson.C76_cmp",
    "Gjson.C76_eq",
    "Gjson.C76_get",
    "Gjson.C76_handed",
    "Gjson.C76_order"
   ],
   "note": "C76_handed and C76_order: values that exist; C76_get: results of get by the rules of C74, missing ones included."
  }
 ]
}