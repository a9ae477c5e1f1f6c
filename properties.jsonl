{"id": "C01", "title": "valid() accepts exactly RFC 8259 JSON", "statement": "For every input text, gjson::valid(text) returns true if and only if text is a JSON text of RFC 8259 (optional whitespace, one value, optional whitespace), reading bytes >= 0x20 other than '\"' and '\\' as legal string content.", "quantifier": "every byte string given to valid(), of any length and nesting depth", "why_tests_cant": "The language is infinite and defined by recursion; acceptance of one wrong text or rejection of one right text is a bug, and no finite set of texts settles both directions.", "anchors": ["src/valid.rs: valid, valid_any, valid_object, valid_array, valid_string, valid_number, valid_true, valid_false, valid_null, strip_ws"]}
{"id": "C02", "title": "valid() and parse() are total", "statement": "For every input text, gjson::valid and gjson::parse return: they never panic, never index outside the text and never loop forever.", "quantifier": "every byte string, including truncated and malformed JSON", "why_tests_cant": "Panics live at specific truncation points and chunk-boundary lengths (8, 16, 32 byte fast loops); only a proof covers every length and offset.", "anchors": ["src/valid.rs: valid, strip_ws, valid_string", "src/lib.rs: parse, proc_value, scan_string, scan_squash, scan_number"]}
{"id": "C03", "title": "get() terminates on every input", "statement": "For every text and every path, gjson::get(text, path) stops: recursion through sub paths, pipes, queries, modifiers and multipaths is bounded by the length of the path, and scanning is bounded by the length of the text.", "quantifier": "every pair of byte strings (text, path)", "why_tests_cant": "Non-termination would appear only for particular path/text pairs, and a test can never distinguish slow from infinite.", "anchors": ["src/lib.rs: get, get_obj, get_arr, for_each, Value::get", "src/path.rs: path_next, next_group, query_parts", "src/modifiers.rs: exec, mod_flatten", "src/multipath.rs: exec, each_comp"]}
{"id": "C04", "title": "get() never panics", "statement": "For every text (valid JSON or not) and every path, gjson::get(text, path) does not panic and does no out-of-bounds unchecked read ('Invalid json will not panic').", "quantifier": "every pair of byte strings (text, path)", "why_tests_cant": "Each index and slice expression needs an argument for all offsets; fuzzing samples the space.", "anchors": ["src/lib.rs: get, proc_value, get_obj, key_match, get_arr*, query_matches", "src/path.rs: path_next, path_next_query, path_next_multipath, query_parts, next_group", "src/modifiers.rs: exec", "src/multipath.rs: exec, each_comp"]}
{"id": "C05", "title": "Value accessors never panic", "statement": "For every Value obtained from parse, get, each or array, the accessors str, i64, u64, f64, bool, the narrow integer conversions and comparison do not panic.", "quantifier": "every text and every path, then every accessor on the result", "why_tests_cant": "The failing values are those produced from malformed texts; unit tests check a few well formed ones.", "anchors": ["src/lib.rs: Value::str, Value::i64, Value::u64, Value::f64, Value::bool, Value::cmp, parse, scan_string"]}
{"id": "C06", "title": "Object member lookup by plain key", "statement": "For every valid JSON text that is an object and every plain key k, get(text, k) returns the value of the first member whose decoded key is k: json() is exactly that member's source text, kind() is its JSON kind; if there is no such member the result does not exist.", "quantifier": "every valid object text (any whitespace, any nesting inside members, any key escapes) and every key without path-special characters", "why_tests_cant": "Skipping over arbitrary nested values, strings containing brackets and escapes must be right for every document.", "anchors": ["src/lib.rs: get, get_obj, key_match, proc_value, scan_string, scan_squash, scan_number"]}
{"id": "C07", "title": "Array element lookup by index", "statement": "For every valid JSON text that is an array and every index n, get(text, n) returns the n-th element (counting from 0): json() is exactly the element's source text, kind() its kind; if n is not smaller than the number of elements the result does not exist.", "quantifier": "every valid array text and every natural number n below 2^63", "why_tests_cant": "Holds for unboundedly many documents and indices.", "anchors": ["src/lib.rs: get, get_arr, get_arr_child_at_index, for_each"]}
{"id": "C08", "title": "Array length by '#'", "statement": "For every valid JSON text that is an array, get(text, \"#\") exists, has kind Number and its json() is the decimal numeral of the number of elements (also reached as u64()).", "quantifier": "every valid array text", "why_tests_cant": "Holds for every length and element shape.", "anchors": ["src/lib.rs: get_arr_count, for_each"]}
{"id": "C09", "title": "Nested dot paths find what they name", "statement": "For every valid JSON text and every dot path of plain keys and indexes that resolves step by step in the document to a value, get(text, path) returns exactly that value's source text and kind.", "quantifier": "every valid text, every path length, every mixture of objects and arrays", "why_tests_cant": "Induction over path and document; tests use paths of length two or three.", "anchors": ["src/lib.rs: get, get_obj, get_arr, proc_value", "src/path.rs: path_next"]}
{"id": "C10", "title": "Nested dot paths find nothing else", "statement": "For every valid JSON text and every dot path of plain keys and indexes that does not resolve in the document, get(text, path) does not exist.", "quantifier": "every valid text and every plain dot path", "why_tests_cant": "A spurious hit needs a particular shape (a key repeated at a deeper level); tests look only for values that are there.", "anchors": ["src/lib.rs: proc_value (squash = false branch), get_obj"]}
{"id": "C11", "title": "get(a.b) equals get(a).get(b)", "statement": "For every valid JSON text and plain keys a and b, get(text, 'a.b'), get(text, 'a').get('b') and parse(text).get('a').get('b') return the same value (README, 'Simple Parse and Get').", "quantifier": "every valid text and every pair of plain keys", "why_tests_cant": "An equation over all documents.", "anchors": ["src/lib.rs: get, Value::get, parse, proc_value", "README.md: Simple Parse and Get"]}
{"id": "C12", "title": "Pipe composes paths", "statement": "For every text (valid or not), every plain key or index a and every path b, get(text, 'a|b') is the same value (json, kind, str) as get(text, 'a').get(b).", "quantifier": "every byte string as text, every plain first component, every second path", "why_tests_cant": "An equation over all texts and all paths, including paths with modifiers and queries.", "anchors": ["src/lib.rs: get, Value::get", "src/path.rs: path_next"]}
{"id": "C13", "title": "'#.path' maps a path over an array", "statement": "For every valid array text and every sub path p of plain keys and indexes, get(text, '#.' + p) is an array text whose elements are, in order, the json() of get(e, p) for those elements e of the array for which it exists.", "quantifier": "every valid array text and every plain sub path", "why_tests_cant": "Holds for arrays of every length and every mixture of hits and misses.", "anchors": ["src/lib.rs: get_arr_children_with_subpath, for_each", "src/path.rs: next_group"]}
{"id": "C14", "title": "'#(query)' returns the first match, '#(query)#' all matches in order", "statement": "For every valid array text and comparison query, get with '#(query)' returns the first element for which the query holds, or does not exist when none does; '#(query)#' returns the array text of all matching elements, in order, and nothing else.", "quantifier": "every valid array text, every query of the form lh op rh with plain parts", "why_tests_cant": "First/all/only are universally quantified over elements.", "anchors": ["src/lib.rs: get_arr_child_with_query, get_arr_children_with_query_subpath, query_matches", "src/path.rs: path_next_query, query_parts"]}
{"id": "C15", "title": "Query comparison semantics", "statement": "A query compares a string value by its decoded content byte-wise with the right hand side, a number by numeric value, and true/false as false < true; '=' and '!=' are complementary, '<' and '>=' are complementary, '<=' and '>' are complementary on strings and (non-NaN) numbers; '%' and '!%' are complementary; a missing value matches nothing.", "quantifier": "every existing value and every right hand side", "why_tests_cant": "Complementarity and order laws range over all values.", "anchors": ["src/lib.rs: query_matches"]}
{"id": "C16", "title": "Wildcard matching follows its grammar", "statement": "A key pattern matches a name exactly when the name can be cut so that '*' stands for any sequence of bytes, '?' for any one byte, '\\c' for c, and any other character for itself; a pattern ending in a lone backslash never matches.", "quantifier": "every pattern and every name", "why_tests_cant": "Backtracking matcher; correctness is over all pattern/name pairs, including runs of stars.", "anchors": ["src/util.rs: pmatch", "src/lib.rs: key_match"]}
{"id": "C17", "title": "Escaping makes any key reachable", "statement": "For every non-empty key k, the path obtained by putting a backslash in front of each special character addresses exactly the member whose decoded key is k.", "quantifier": "every key and every valid object text", "why_tests_cant": "Ranges over all keys, including keys made only of special characters.", "anchors": ["src/path.rs: path_next", "src/util.rs: pmatch", "src/lib.rs: key_match"]}
{"id": "C18", "title": "JSON lines", "statement": "For every sequence of valid JSON values separated by whitespace (JSON Lines), get(text, '..#') is the number of values and get(text, '..n') is the n-th value's source text.", "quantifier": "every number of lines and every line value", "why_tests_cant": "Holds for unboundedly many documents.", "anchors": ["src/lib.rs: get, get_arr, for_each"]}
{"id": "C19", "title": "A plain result is a piece of the source text", "statement": "For every text, valid or not, and every path of plain components, the json() of an existing result is a contiguous part of the text, unchanged.", "quantifier": "every byte string as text, every plain path", "why_tests_cant": "Holds for malformed texts too, where the result is otherwise unspecified.", "anchors": ["src/lib.rs: json_from_slice, get, proc_value"]}
{"id": "C20", "title": "A missing result is the neutral value", "statement": "exists() is true exactly when json() is non-empty; for a default Value kind() is Null, str() is empty, integers are 0, bool() is false, each() calls nothing and array() is empty.", "quantifier": "every value", "why_tests_cant": "Relied on for every missing path.", "anchors": ["src/lib.rs: Value::default, Value::exists, Value::kind, Value::str, Value::each, Value::array"]}
{"id": "C21", "title": "unescape inverts escape", "statement": "For every string s, tools::unescape(tools::escape(s)) == s.", "quantifier": "every byte string s", "why_tests_cant": "A round trip over all strings, including control characters, quotes and backslashes.", "anchors": ["src/util.rs: escape, extend_json_string, unescape"]}
{"id": "C22", "title": "escape produces a JSON string", "statement": "For every string s, tools::escape(s) is accepted by valid() and is a JSON string literal; get/parse read it back as kind String with str() == s.", "quantifier": "every byte string s", "why_tests_cant": "Ranges over all strings.", "anchors": ["src/util.rs: extend_json_string", "src/valid.rs: valid_string", "src/lib.rs: parse, scan_string, Value::str"]}
{"id": "C23", "title": "String values are decoded as RFC 8259 says", "statement": "For every valid JSON string literal, str() is the decoded content: simple escapes, \\uXXXX for every code point of the basic plane, and surrogate pairs for every supplementary code point.", "quantifier": "every valid string literal", "why_tests_cant": "All 2^20 surrogate pairs and every string length.", "anchors": ["src/util.rs: unescape, utf16_is_surrogate, utf16_decode", "src/lib.rs: Value::str, json_unescape_string"]}
{"id": "C24", "title": "Integers are read exactly", "statement": "For every integer n in the i64 range (u64 range), a JSON number written as the decimal numeral of n, also inside a string, gives i64() == n (u64() == n).", "quantifier": "every 64 bit integer", "why_tests_cant": "2^64 values, in particular those above 2^53 where a float detour loses digits.", "anchors": ["src/lib.rs: Value::i64, Value::u64, raw_to_i64, raw_to_u64"]}
{"id": "C25", "title": "Narrow integer conversions saturate", "statement": "i32, i16, i8 and u32, u16, u8 return the nearest representable value to i64() or u64().", "quantifier": "every value of i64()/u64()", "why_tests_cant": "Boundary values on both sides of every range.", "anchors": ["src/lib.rs: Value::i32, Value::i16, Value::i8, Value::u32, Value::u16, Value::u8"]}
{"id": "C26", "title": "Values are totally ordered", "statement": "Comparison of Values is reflexive, antisymmetric up to equality, transitive and total, agrees with ==, orders first by kind (Null < False < Number < String < True < Array < Object), strings by content and numbers by value.", "quantifier": "every triple of values obtained from the API", "why_tests_cant": "Order laws range over triples; sort() relies on them.", "anchors": ["src/lib.rs: Ord for Value, PartialEq for Value, Ord for Kind"]}
{"id": "C27", "title": "each() and array() enumerate an array", "statement": "For every valid array text, parse(text).array() (and each) yields exactly the elements, in order, each with its source text and kind; each stops after the first callback that returns false.", "quantifier": "every valid array text and every callback", "why_tests_cant": "Holds for every length and element shape.", "anchors": ["src/lib.rs: Value::each, Value::array, for_each"]}
{"id": "C28", "title": "each() enumerates an object", "statement": "For every valid object text, each yields exactly the (key, value) pairs in order with their source texts, with callback-controlled early stop.", "quantifier": "every valid object text and every callback", "why_tests_cant": "Holds for every number of members.", "anchors": ["src/lib.rs: Value::each, for_each"]}
{"id": "C29", "title": "@reverse reverses", "statement": "For every valid array text, '@reverse' gives a valid array text with the same elements in reverse order; for an object the members in reverse order; any other value is unchanged; reversing twice gives back the original elements.", "quantifier": "every valid text", "why_tests_cant": "Holds for every length.", "anchors": ["src/modifiers.rs: mod_reverse, exec"]}
{"id": "C30", "title": "ugly removes exactly the insignificant whitespace", "statement": "For every valid text, tools::ugly(text) is valid JSON, has the same tokens and string contents, and contains no whitespace outside strings; ugly is idempotent on every byte string.", "quantifier": "every text", "why_tests_cant": "Quoting and backslash parity must be right for every string.", "anchors": ["src/pretty.rs: ugly", "src/modifiers.rs: mod_ugly"]}
{"id": "C31", "title": "pretty changes only whitespace", "statement": "For every valid text and every whitespace-only prefix/indent and every width, with sort_keys off, ugly(pretty(text)) == ugly(text); in particular the result is valid JSON for the same document.", "quantifier": "every valid text of any depth, every width and whitespace indent", "why_tests_cant": "Line-fitting retries, truncation and the depth limit 500 interact; tests print one document.", "anchors": ["src/pretty.rs: pretty_options, extend_pretty_any, extend_pretty_object, extend_pretty_string, extend_pretty_number, extend_tabs"]}
{"id": "C32", "title": "@flatten flattens one level, or all with deep", "statement": "For every valid array text, '@flatten' gives a valid array text whose elements are the elements in order, with each array element replaced by its own elements; with {\"deep\":true} recursively; a non-array is unchanged.", "quantifier": "every valid text", "why_tests_cant": "Ranges over all nestings.", "anchors": ["src/modifiers.rs: mod_flatten, unwrap"]}
{"id": "C33", "title": "@join merges objects", "statement": "For every valid array of objects, '@join' gives a valid object text with one member per distinct key, ordered by first appearance, holding the last value; with {\"preserve\":true} all members in order.", "quantifier": "every valid array text", "why_tests_cant": "Ranges over all key sets and duplicates.", "anchors": ["src/modifiers.rs: mod_join, unwrap"]}
{"id": "C34", "title": "@this, @valid and unknown modifiers", "statement": "'@this' returns the document; '@valid' returns it exactly when valid() accepts it and otherwise a non-existent value; an unknown modifier name gives a non-existent value.", "quantifier": "every text, every modifier name", "why_tests_cant": "Ranges over all texts and names.", "anchors": ["src/modifiers.rs: exec, mod_this, mod_valid"]}
{"id": "C35", "title": "Multipaths build arrays and objects", "statement": "For every text and every list of plain sub paths p1..pn, '[p1,...,pn]' gives the array text of the json() of those get(text, pi) that exist, in order; '{k1:p1,...}' the object text with the escaped keys and those values.", "quantifier": "every text and every list of plain sub paths", "why_tests_cant": "Ranges over all lists of paths and all hit/miss patterns.", "anchors": ["src/multipath.rs: exec_arr, exec_obj, each_comp, key_for_path"]}
{"id": "C36", "title": "Results are valid UTF-8", "statement": "For every UTF-8 text and UTF-8 path, json() and str() of the result are valid UTF-8 (they are produced with from_utf8_unchecked, so anything else is undefined behaviour).", "quantifier": "every UTF-8 text and path", "why_tests_cant": "Cutting inside a multi-byte character happens only for particular malformed texts; fuzzing did not settle it.", "anchors": ["src/util.rs: tostr, unescape", "src/lib.rs: json_from_slice, proc_value"]}
{"id": "C37", "title": "tools::unescape returns valid UTF-8", "statement": "For every UTF-8 argument, tools::unescape returns a valid UTF-8 String (the Vec<u8> is transmuted without a check).", "quantifier": "every UTF-8 string", "why_tests_cant": "Depends on where a malformed \\u escape meets a multi-byte character.", "anchors": ["src/util.rs: unescape"]}
{"id": "C38", "title": "sort_keys orders members", "statement": "For every valid text, pretty with sort_keys gives the same document with the members of every object ordered by key bytes, equal keys staying in source order.", "quantifier": "every valid text", "why_tests_cant": "Sorting inside nested buffers by byte ranges; ranges over all objects.", "anchors": ["src/pretty.rs: sort_pairs, extend_pretty_object"]}
{"id": "C39", "title": "bool() conversion", "statement": "bool() is true for true, 1, and the strings t, T, 1, true, TRUE, True; false for false, 0, null, and the strings f, F, 0, false, FALSE, False; any other value is true exactly when its i64() is non-zero.", "quantifier": "every value", "why_tests_cant": "Ranges over all raw texts.", "anchors": ["src/lib.rs: Value::bool"]}
{"id": "C40", "title": "Parsing ignores surrounding whitespace", "statement": "For every valid text t and whitespace w1, w2: valid(w1 t w2) and parse(w1 t w2) has the same kind as parse(t); for scalars json() is exactly the scalar's text; get gives the same result on both for plain paths.", "quantifier": "every valid text and whitespace", "why_tests_cant": "Ranges over all texts.", "anchors": ["src/lib.rs: parse, get", "src/valid.rs: valid"]}
{"id": "C41", "title": "What is found in JSON is JSON", "statement": "For every valid JSON text and every path that does not use @flatten, @join or an argument of @pretty: if the result exists, its json() is a valid JSON text (for paths without modifiers exactly one value without surrounding whitespace), and kind, str(), i64(), u64(), f64() and bool() of the result are those that parse(json()) gives. The same for JSON Lines texts and paths without modifiers. The restriction is needed.", "quantifier": "every valid text, every path with the stated restriction", "why_tests_cant": "Ranges over all texts and all combinations of keys, indexes, wildcards, queries, multipaths and modifiers.", "anchors": ["src/lib.rs: get, getarr, getobj, proc_value", "src/modifiers.rs", "src/multipath.rs"]}
{"id": "C42", "title": "Numbers are read to the nearest double", "statement": "For every JSON number literal t with decimal value q, f64() of the value (number or number in quotes) is the IEEE 754 binary64 number nearest to q, ties to even, infinite from 2^1024-2^970 on; this number is unique. cmp and the query operators < <= > >= = != on numbers compare these doubles, so cmp = Less, < and > imply the numeric order of the texts and <=, >=, = hold whenever the numbers are so ordered. i64()/u64() are exact for integer literals in range, otherwise the double truncated toward zero and saturated. f32() is the binary32 number nearest to f64() (not always nearest to q).", "quantifier": "every JSON number literal (any length, fraction and exponent)", "why_tests_cant": "Ranges over infinitely many literals, including halfway cases of any length.", "anchors": ["src/lib.rs: Value::f64, f32, i64, u64, Ord, query_matches, raw_to_f64"]}
{"id": "C43", "title": "The layout of pretty", "statement": "For every valid JSON text and all options (width, prefix, indent, sort_keys), pretty writes exactly: the prefix, the layout of the document and a line break. In the layout, every element and member of an array or object that is not empty is on a line of its own, which starts with the prefix and one indent per level, members as key, colon, space, value; an array without objects inside goes on one line with ', ' between elements if it fits in the width. With sort_keys it is the layout of the sorted document. So the result does not depend on the whitespace of the text, and with whitespace as prefix and indent applying pretty again changes nothing. All this up to the first array or object nested 500 deep; from there on the text is copied without whitespace, and the arrays and objects around that place are not sorted. @pretty reads the options from its argument.", "quantifier": "every valid text, all options", "why_tests_cant": "Ranges over all documents and options.", "anchors": ["src/pretty.rs: pretty_options, extend_pretty_any, extend_pretty_object, sort_pairs", "src/modifiers.rs: mod_pretty"]}
{"id": "C44", "title": "What follows a dot applies to the value found", "statement": "For every valid text and components k1..kn (keys, patterns, escaped keys, indexes) that lead, each to the first member it selects or to the element, to the value t: get(text, k1...kn.rest) is get(t, rest) when rest starts with a modifier or multipath, when t is a scalar, when kn is an index, and when t is an array and rest starts with #, #(query)# or a #(query) that holds for some element. When the keys are not nested in the text, k1...kn.rest is k1...kn|rest for every rest. A pipe after dot-separated components of every kind (also modifiers, multipaths, # and queries) applies the rest to the result, for all texts, any number of times.", "quantifier": "every valid text (every text for the pipe), every path of this form, every rest", "why_tests_cant": "Ranges over all documents and all continuations of the path.", "anchors": ["src/lib.rs: get, getobj, getarr, proc_value", "src/path.rs: next, next_group"]}
{"id": "C45", "title": "'~true' and '~false' compare truth values", "statement": "In a query, a right hand side ~true or ~false compares bool() of the value found instead of the value; a missing value counts as false. So for every valid array text (or JSON Lines) and every left side, '#(lh==~true)#' and '#(lh==~false)#' are the arrays of the elements whose value has bool() true and false, and every element is in exactly one of them. The other operators follow false < true, except that true<=true and false>=false do not hold.", "quantifier": "every valid array text or JSON Lines, every left side, every operator", "why_tests_cant": "The split of all elements is universally quantified; the project's own test for ~false is commented out.", "anchors": ["src/lib.rs: query_matches (lines 808-819), Value::bool"]}
{"id": "C46", "title": "Number conversions of every value and every text", "statement": "true converts to 1 and false, null, arrays, objects and missing values to 0. A string converts by its content str(), whatever way it is escaped: text in the number syntax of Rust (optional sign, digits with an optional point and exponent, or inf, infinity, nan in any case) is read as the nearest binary64 number, all other text as 0. i64() and u64() are exact for an optional sign and digits in range, otherwise that binary64 number truncated and saturated. Every text is read as exactly one number.", "quantifier": "every value kind, every string content", "why_tests_cant": "Ranges over all texts: acceptance and rejection are both exact.", "anchors": ["src/lib.rs: Value::f64, i64, u64, raw_to_f64, raw_to_i64, raw_to_u64"]}
{"id": "C47", "title": "Every string literal has one decoded text", "statement": "For every valid string literal, also one with unpaired surrogate escapes, str() and tools::unescape give exactly one text: escapes and pairs decoded as in C23; a surrogate that forms no pair with the \\u escape right after it becomes, together with that escape, one U+FFFD; a surrogate with no \\u escape after it becomes U+FFFD; a pair for an even plane becomes the code point one plane lower.", "quantifier": "every valid string literal", "why_tests_cant": "All literals, all 2^32 combinations of two escapes.", "anchors": ["src/util.rs: unescape, utf16_is_surrogate, utf16_decode", "src/lib.rs: Value::str"]}
{"id": "C48", "title": "One reference semantics for whole paths", "statement": "One set of rules says what a path finds in a text, for keys, patterns, indexes, #, queries, modifiers with their options, multipaths and JSON Lines, joined by dots and pipes in any way. Whenever the rules give a text r for a document and a path, get returns a value with the text r, which exists exactly if r is not empty and is what parse makes of r. The rules give at most one r. For every JSON text and every path of these components (leaving out options that make modifiers write something else than JSON) the rules give an r, and it is a JSON value or nothing.", "quantifier": "every JSON text, every path of this grammar", "why_tests_cant": "Ranges over all combinations of documents and path components.", "anchors": ["src/lib.rs: get, getobj, getarr, proc_value, query_matches", "src/path.rs: next", "src/modifiers.rs", "src/multipath.rs"]}
{"id": "C49", "title": "Whitespace between tokens does not matter", "statement": "Two JSON texts with the same tokens give the same results for every path of the grammar of C48: both results exist or neither, they have the same kind, the same tokens and the same i64(), u64(), f64() and bool(), and for everything but objects and arrays all accessors agree. So a path finds in ugly(t), and in pretty(t) when keys are not sorted, what it finds in t. The same holds for JSON Lines. The grammar leaves out @flatten without deep and @join with preserve; there a space inside an empty array does matter: @flatten of [[],1] is [1], of [[ ],1] it is [ ,1].", "quantifier": "every two JSON texts with the same tokens, every path of the grammar of C48", "why_tests_cant": "Ranges over pairs of documents and all paths.", "anchors": ["src/lib.rs: get, getobj, getarr", "src/modifiers.rs", "src/multipath.rs"]}
{"id": "C50", "title": "pretty with sort_keys is a canonical form", "statement": "For two JSON texts nested less deep than 500, pretty with sort_keys (and whitespace as prefix and indent) gives the same text exactly if the texts are equal up to whitespace and the order of the members of objects, where members with the same key keep their order. The 'if' holds for any prefix and indent and for @pretty with sortKeys, the 'only if' at any depth. From depth 500 on the 'if' fails.", "quantifier": "every two valid texts, all options", "why_tests_cant": "Ranges over pairs of documents and all orders of members.", "anchors": ["src/pretty.rs: sort_pairs, extend_pretty_object", "src/modifiers.rs: mod_pretty"]}
{"id": "C51", "title": "The order of members does not matter for keys", "statement": "For two JSON texts that are equal up to whitespace and the order of the members of objects (members with the same key, as the library decodes keys, keep their order), every path of dot-separated keys without wildcards, with or without escapes, and indices finds values that are again equal up to whitespace and the order of members, or nothing in both; scalars agree in all accessors. With wildcards, and if the same key written in two ways changes its order, the result can differ.", "quantifier": "every two such texts, every such path", "why_tests_cant": "Ranges over pairs of documents and all paths; the search goes on inside of values when a path cannot be followed.", "anchors": ["src/lib.rs: get, getobj, getarr"]}
{"id": "C52", "title": "How deep the calls of valid, pretty and @flatten nest", "statement": "On a JSON text valid() nests its calls of valid_any exactly as deep as values of the text lie one inside the other, so no stack of fixed size suffices for it; on any text it nests them at most one deeper than the text has opening brackets and braces. pretty, with any options, never nests its calls of extend_pretty_any deeper than 500 on any text. @flatten with deep nests its calls exactly as deep as arrays lie directly one inside the other.", "quantifier": "every text, valid or not; all options of pretty", "why_tests_cant": "Stack use is only seen when the stack runs out, at depths that depend on the machine; the bound must hold for every text.", "anchors": ["src/valid.rs: valid_any, valid_object, valid_array", "src/pretty.rs: MAX_DEPTH, extend_pretty_any, extend_pretty_object", "src/modifiers.rs: mod_flatten"]}
{"id": "C53", "title": "Nothing is made up", "statement": "For every text, JSON or not, and every path whose @pretty options have no escapes, every byte of the result's json() is a byte of the text, a byte of the path, or one of the few bytes that gjson writes itself: brackets, separators, quotes, line breaks and spaces of @pretty, literal names, digits of a count, and the escapes in the keys of a multipath. In particular a result has a byte outside ASCII only if the text or the path has it. pretty() adds only bytes of its prefix and indentation, separators, brackets, line breaks and literal names; ugly() only drops bytes and keeps the rest in order.", "quantifier": "every byte string as text and as path; all options of pretty", "why_tests_cant": "A byte from a wrong place (a stale buffer, an unescaped copy, an offset one too far) shows only for particular combinations of malformed texts and paths.", "anchors": ["src/lib.rs: get, parse, get_arr, get_obj, proc_value, json_from_owned", "src/multipath.rs: exec_arr, exec_obj", "src/modifiers.rs: exec and all modifiers", "src/pretty.rs: pretty_options, ugly"]}
{"id": "C54", "title": "How often a search looks into objects", "statement": "A search of get() calls get_obj and get_arr at most as often as there are ways to choose, from all but one of the b opening brackets and braces of the text, at most as many as the path has dots. So a path without dots takes at most one call, and a fixed path with d dots at most (b+1)^d calls. The bound is attained for all numbers of braces and dots: the path a.a.….a.b with m dots on the JSON text {\"a\":{\"a\":…{}…}} with m members takes 2^m calls, to find nothing.", "quantifier": "every text, JSON or not, and every path; the worst case for every m", "why_tests_cant": "Tests measure time on a few inputs; that no text makes a given path take more calls, and how the worst case grows, are statements about all texts.", "anchors": ["src/lib.rs: proc_value (a failed dive leaves the position where it was), get_obj, get_arr, get"]}
{"id": "C55", "title": "How deep the calls of get nest", "statement": "For every text and every path, at no time are more calls of get() and get_obj active one inside the other than the path is long, plus two; the text does not matter. A limit on that nesting either is exceeded or does not change the result. The bound is attained for every length of the path: a path of m pipes on the JSON text {\"\":{\"\":…{}…}} takes m + 2 calls.", "quantifier": "every pair of byte strings (text, path); every limit", "why_tests_cant": "A stack overflow appears only on some machine at some depth; that no text, however deeply nested, makes get() recurse deeper than its path allows is a statement about all texts.", "anchors": ["src/lib.rs: get, get_obj, proc_value, get_arr, Value::get", "src/modifiers.rs: exec, mod_pretty, mod_join, mod_flatten (options)", "src/multipath.rs: exec_arr, exec_obj"]}
{"id": "C56", "title": "Texts that break off", "statement": "A path of keys, wildcards and indexes joined by dots is followed through the text only as far as it leads: if in the beginning of a text, JSON as far as it goes, each key of the path leads to the first member that it hits and each index to an element, get() gives the value at the end of the path, whatever follows that value in the text: nothing (the text is cut off), more JSON, or bytes that are not JSON. So in a JSON document everything after the value that the path leads to may be cut off or replaced. Two limits: a number must not be followed directly by a byte that could belong to a number (digits . e E + -), and the element that the first index of the path leads to must be there in full, also if the path goes on inside it.", "quantifier": "every text that begins as stated, whatever follows; every path of such components", "why_tests_cant": "Tests try a few cut-off documents; that no rest of the text, of arbitrary bytes, changes the value found is a statement about all of them.", "anchors": ["src/lib.rs: get, get_obj, get_arr, proc_value, scan_number, scan_string, scan_squash"]}
{"id": "C57", "title": "How large a result can be", "statement": "For every text t and every path p, the text of the value that get() finds has at most (|t| + 1) * 8^|p| - 1 bytes: for a fixed path it is linear in the text. The growth with the path can be exponential: with every [@this,@this] in a path the result doubles. A modifier other than @pretty at most doubles any text, with two bytes more; tools::ugly makes no text longer; and tools::pretty writes at most |prefix| + (6 + |prefix| + 500 |indent|) (|t| + 4) + 1 bytes, so it is linear in the text although every line is indented as deep as it is nested. The string of a value found (str()) is no longer than its text, except for the words true and false.", "quantifier": "every text, JSON or not, and every path; all options of pretty; the growth for every JSON value and every number of components", "why_tests_cant": "Tests show sizes for a few inputs; that no text makes a path produce more, whatever its modifiers and options, is a statement about all inputs.", "anchors": ["src/lib.rs: get, get_arr, Value::str", "src/modifiers.rs: mod_pretty, mod_reverse, mod_flatten, mod_join", "src/multipath.rs: exec_arr, exec_obj", "src/pretty.rs: pretty_options, extend_pretty_any, extend_pretty_obj, ugly"]}
{"id": "C58", "title": "parse(text).get(path) is get(text, path); leading whitespace never matters", "statement": "For every valid JSON text and every path whatsoever (modifiers, multipaths, queries and '..' included), parse(text).get(path) and get(text, path) give the same value; the same holds for every text, valid or not, that opens an array or object after optional whitespace. Whitespace put in front of any text, valid or not, changes the outcome of no path, nor what pretty, ugly and valid answer. Around a document that is no array or object, whitespace changes nothing at all.", "quantifier": "every text, every path, every amount of JSON whitespace", "why_tests_cant": "An equation over all texts and all paths, including texts that are not JSON.", "anchors": ["src/lib.rs: parse, get, Value::get", "src/modifiers.rs: exec", "src/multipath.rs: exec", "src/pretty.rs: pretty_options, ugly"]}
{"id": "C59", "title": "Results are made of whole tokens of the document", "statement": "For every valid JSON text, and every other text made of whole strings, numbers, literal names, brackets, commas, colons and whitespace, whether its brackets match or not, and every path that does not ask @pretty for a prefix or indent: the text of the result is made of whole tokens in the same sense, and every string, number and literal name in it is one of the text, or a key cut from the path, or a count. So a string result is a whole string literal, a number result a whole number of the document or a count, and no modifier, multipath or query ever cuts a token, joins two, or makes one up. tools::ugly and tools::pretty with whitespace as prefix and indent keep tokens whole in all those texts. The conditions are needed.", "quantifier": "every text of whole tokens, every path with the stated restriction", "why_tests_cant": "Ranges over all texts, also not well-bracketed ones, and all combinations of path components and modifiers.", "anchors": ["src/lib.rs: get, proc_value", "src/modifiers.rs", "src/multipath.rs", "src/pretty.rs"]}
{"id": "C60", "title": "An array is the list that array() returns", "statement": "For every array value, from any text whether JSON or not, with elements vs as array() returns them: get of '#' is the number of elements; an index gives that element and nothing when there is none, and what follows the index applies to the element; '#.path' gives the array of what the path finds in the elements; '#(query)' gives the first element for which the query holds and '#(query)#' the array of all of them. Two arrays with the same elements give the same for every path that does not begin with a modifier, a multipath or '..', and for every multipath without '@' and '..'. On every text, '..' before such a path is the same as '[' before the text.", "quantifier": "every array value a caller can hold, every text, every path of the stated forms", "why_tests_cant": "Ranges over all texts, also malformed ones, where the searching code and the enumerating code could read different elements.", "anchors": ["src/lib.rs: get_arr, get_arr_child_with_query, get_arr_children_with_query_subpath, get_arr_children_with_subpath, for_each, Value::array"]}
{"id": "C61", "title": "Replacing or adding a value changes nothing else", "statement": "In a JSON text, wherever plain components lead to a value, the text can be cut around that value so that with any JSON value put there: the text is valid; get of the same path gives the new value, and a path after a pipe is looked up in the new value as if it were the document; get of plain components that part from it (at some component they differ, also as indexes) and lead to something gives the same as before, also with any path after a pipe. With members or elements added at the end of an object or array anywhere in the text, paths below it that lead to something find the same as before; an added member is found by its key when the key is new, an added element by the index that is the former number of elements. Taking a member out or putting one in anywhere changes nothing for paths through other keys; exchanging a run of elements for another run moves the elements behind it by the difference in length and leaves those before it. A path that led nowhere may find something inside the new value.", "quantifier": "every JSON text, every place, every new value, every pair of parting paths", "why_tests_cant": "Relates two documents that differ in an arbitrary value at an arbitrary depth, for all other paths.", "anchors": ["src/lib.rs: get, get_obj, get_arr_child_at_index, parse_path"]}
{"id": "C62", "title": "A value is its text", "statement": "For every value a caller can hold, from any text whether JSON or not and by any calls of parse, get, array and each: if it exists, parse of its text gives a value with the same text, kind, string, numbers and truth value; its text begins with a quote, a bracket, a brace, t, f, n, a minus sign or a digit, and that byte decides its kind. Two such values with the same text cannot be told apart by any accessor, by comparison, by get with any path, by array() or by each(). A value that does not exist is of kind null or string, so arrays and objects always have a text.", "quantifier": "every text, every value obtained from it by any sequence of calls", "why_tests_cant": "Values are made in many places (borrowed, owned, after modifiers and multipaths, with cached decoded strings and flags); that flags and caches always agree with the text is an invariant over all call sequences and all texts.", "anchors": ["src/lib.rs: Value, json_from_slice, json_from_owned, json_into_owned, json_clone_from_ref, proc_value, for_each, parse, Value::get"]}
{"id": "C63", "title": "An object is the pairs that each() hands out, and every value can be reached", "statement": "For every object value whose text is JSON, with pairs ps as each() hands them out: get of a component, plain or with wildcards and escapes, gives the value of the first pair whose key string matches it, and nothing when there is none; get of a key escaped as in C17 (without question marks) gives the value of the first pair with exactly that key string, and nothing when there is none. Whatever can be reached from parse of a JSON text by any sequence of array() elements and each() values (the first of several with the same key; keys without question marks) is found by get on the text with the indexes and escaped keys on the way, joined by pipes; joined by dots as well, when none of the keys is empty.", "quantifier": "every JSON text, every object value in it, every component or key; every way down of any length", "why_tests_cant": "Two separate scanners (for_each and get_obj) must agree on all objects, all keys with escapes in JSON and in paths, and all depths.", "anchors": ["src/lib.rs: each, for_each, get_obj, key_match, get_arr_child_at_index, Value::get", "src/path.rs: path_next"]}
{"id": "C64", "title": "Every path is cut after its first component in one way", "statement": "For every sequence of bytes as a path there is exactly one way to cut it among these, and it is the one Path::new takes: a key, index or pattern up to the first dot or pipe that is not escaped (a lone backslash at the end belongs to it); # alone; #(…) or #(…)# up to the bracket that closes it; an object or array of subpaths up to the bracket that closes it; a modifier up to a separator, or with an argument, which is plain text up to a separator, or text in brackets or quotes up to where they close. Brackets in strings and after backslashes do not count, and what is never closed goes up to the end. At a separator nothing is lost: component, separator and rest make up the path. What follows a multipath without a separator has no effect on get; a # that begins neither a count nor a well-formed query makes the whole path count as the empty path. get depends on how the path is cut and on nothing else in it.", "quantifier": "every sequence of bytes as a path", "why_tests_cant": "The cases depend on escapes, strings and brackets nested to any depth, and on what is left open; every byte sequence has to fall under exactly one of them.", "anchors": ["src/path.rs: path_next, path_next_query, path_next_multipath, Path::new", "src/lib.rs: scan_squash, scan_string, proc_value"]}
{"id": "C65", "title": "Every query is cut into left side, operator and right side in one way", "statement": "For every sequence of bytes as a path component there is exactly one set of parts, and it is what query_parts returns. Unless the component is #(…) or #(…)#, all parts are empty. Otherwise the text between the parentheses, without blanks around it, is cut at its first operator: the first of = == != < <= > >= % !% or a lone !, as long as it can be, that is neither escaped by a backslash nor behind more opening than closing parentheses; quotes do not protect it. Left and right side are stripped of blanks and == is called =. Without an operator the whole text is the left side. Parts and blanks are all there is between the parentheses. On every text but an object (where the component is a key), and on JSON lines, get depends only on the parts, on whether a # follows, and on the rest of the path.", "quantifier": "every sequence of bytes as a component; every text for the effect on get", "why_tests_cant": "Escapes and parentheses nest to any depth, also without balance, and every byte sequence has to fall under exactly one rule.", "anchors": ["src/path.rs: query_parts", "src/lib.rs: get_arr, get_arr_child_with_query, get_arr_children_with_query_subpath", "src/util.rs: trim"]}
{"id": "C66", "title": "Arrays and JSON lines with every sequence of bytes as a path", "statement": "For every JSON array, and every JSON lines document with a path behind .., and every sequence of bytes as the path: a first component that is no #, modifier or multipath is an index and selects that element, or finds nothing; # is the number of elements unless a dot follows; #. gives the array of what the group behind it finds in each element that has it, where the group is the components up to the first pipe between components or the end; #(…) is the first element for which the query holds, #(…)# the array of all of them, or with a dot behind it the array of what the group finds in each of them. What remains of the path is applied to the result. There is exactly one such group and it is the one next_group returns. A query holds for an element if the value its left side finds there (the element itself without a left side) matches operator and right side.", "quantifier": "every array or sequence of lines of any length; every sequence of bytes as path, query and group", "why_tests_cant": "Paths, queries and groups nest in each other to any depth, and the elements can be any number of any values.", "anchors": ["src/path.rs: next_group, query_parts", "src/lib.rs: get_arr, get_arr_count, get_arr_child_at_index, get_arr_child_with_query, get_arr_children_with_query_subpath, get_arr_children_with_subpath"]}
{"id": "C67", "title": "What every path finds in a JSON document", "statement": "For every JSON document and every sequence of bytes as a path that does not begin with .., a modifier or a multipath, there is exactly one outcome of the search described here, and get returns it. In an object, the first member is taken whose key the component selects: by equality (also # and #(…) are keys here), or as a pattern if the component has a backslash or a wildcard. If a dot and another such component follow and the value is an object or array, the search goes on inside it; if nothing is found there, reading goes on at the beginning of that value. Otherwise the rest of the path is applied to the value. In an array, an index selects an element, # counts, #. maps the group behind it, #(…) and #(…)# query, as in C66, and the rest of the path is applied to the result. If nothing is found the result is the missing value, or what the rest of the path behind the first component makes of an empty text. (That there is an outcome is claimed for the paths on which get does not panic by C04.)", "quantifier": "every JSON document and every sequence of bytes as a path", "why_tests_cant": "Objects, arrays and components of every kind nest in each other to any depth, and the search turns back into values it has left.", "anchors": ["src/lib.rs: get, proc_value, get_obj, key_match, get_arr", "src/path.rs: path_next, next_group, query_parts"]}
{"id": "C68", "title": "Modifiers and multipaths with every sequence of bytes as a path", "statement": "For every document text and every sequence of bytes as a path: if the first component begins with @ it is a call of exactly one name with one argument; only name and argument matter, whatever is written in them, and the rest of the path is applied to what the call gives. A name that is not one of the seven modifiers byte for byte gives nothing; @this gives the document as parse reads it; @valid gives the same if the document is JSON by RFC 8259 and nothing otherwise; @this, @reverse, @ugly and @valid ignore their argument. If the component begins with [ or { and ends with the bracket of that kind, what is between is cut into entries in exactly one way: at the commas outside brackets that no backslash precedes, where quotes count only inside brackets, a bracket that is never closed takes all that follows, and an entry with a backslash at the very end is lost. In an entry the last colon separates the name from the sub path; without a colon the key is what follows the last separator if that is a simple name, else _. The result is the array (or object, with the keys) of what the sub paths find in the document, without those that find nothing, and the rest of the path is applied to it. If it does not end with the bracket of its kind, the result is the missing value, whatever follows.", "quantifier": "every sequence of bytes as document and as path", "why_tests_cant": "Entries, brackets, names and arguments are arbitrary byte strings of any number, length and nesting.", "anchors": ["src/multipath.rs: exec, exec_arr, exec_obj, each_comp, key_for_path, name_of_last, is_simple_name", "src/modifiers.rs: exec", "src/lib.rs: get"]}
{"id": "C69", "title": "What is decoded and read from every text, JSON or not", "statement": "For every sequence of bytes between two quotes tools::unescape returns exactly one text: the escapes of RFC 8259 are decoded, a quote that is not escaped stands for itself, \\u takes the four bytes behind it whatever they are (four hexadecimal digits, or a plus sign and three, are a number; anything else gives U+FFFD; surrogates as in C47), and decoding stops without an error at a control byte, at an unknown escape, at a backslash at the end and at a \\u with fewer than four bytes behind it. Of a text without quotes at both ends it makes the empty text. On string literals of RFC 8259 this agrees with C47. For every value that exists and that the library hands out, from any text and path, str, i64, u64, f64 and bool are determined by the text of the value alone: a string's content is decoded as above if there is a backslash in it and is taken as it stands otherwise, control bytes included; numbers are read from that content or from the text of a number as C46 says; a text that begins like true counts as 1, the others as 0.", "quantifier": "every sequence of bytes; every value reachable from any text by any sequence of calls", "why_tests_cant": "The text is arbitrary: escapes may be broken at any place, and values come out of texts that are not JSON.", "anchors": ["src/util.rs: unescape", "src/lib.rs: Value::str, i64, u64, f64, bool"]}
{"id": "C70", "title": "What every query decides", "statement": "For every value that the library hands out, from any text and path, every sequence of bytes as operator and every sequence of bytes as right hand side, the query gives exactly one answer, and it depends on the text of the value alone. A right hand side between quotes stands for its content, decoded if it has a backslash, except for two quotes with nothing between them, which stand for themselves like every other text. Unless it begins with ~: a missing value answers no; without an operator every value answers yes; a string is compared byte by byte or as a pattern, a number with the number read from the right hand side by IEEE 754, true and false as C15 says; null, objects and arrays answer no, and so does every operator that is not one of the eight. Behind ~ the truth value of the left side is compared instead, where a missing value counts as false. (A missing value that is an unclosed string can panic behind ~; if it answers, the answer is this one.) In a path, the query holds for an element by this rule from the text that its left side finds there.", "quantifier": "every handed out value, every operator text, every right hand side", "why_tests_cant": "Values, operators and right hand sides are arbitrary byte strings, and the rules have to cover all of them without overlap.", "anchors": ["src/lib.rs: query_matches, Value::bool", "src/util.rs: unescape"]}
{"id": "C71", "title": "What every path finds, as one relation between texts", "statement": "There is one relation between document texts, paths and result texts, given by rules that mention only the grammars of JSON and of paths: searching in objects and arrays, #, queries, modifiers, multipaths, JSON lines, and applying the rest of the path to what was found. For every document text and every sequence of bytes as a path, whatever the relation gives is what get returns: the text of the result, its kind, and that it exists unless the text is empty; and it gives at most one text. For every JSON text, every JSON lines document with .. in front of the path, and every sequence of bytes as a path in which none of @flatten, @join: and @pretty: occurs, it gives a text, which is a JSON value or empty; so there the relation and get agree exactly. Only shorter paths are needed to say what a path finds.", "quantifier": "every document text, every sequence of bytes as a path", "why_tests_cant": "Every malformed and well formed path has to be covered, with paths nested in queries, multipaths and groups to any depth, in every JSON text.", "anchors": ["src/lib.rs: get, proc_value, get_obj, key_match, get_arr, query_matches", "src/path.rs: path_next, next_group, query_parts", "src/modifiers.rs: exec", "src/multipath.rs: exec"]}
{"id": "C72", "title": "What every path finds whose modifiers make JSON of JSON", "statement": "The relation of C71 gives a text, a JSON value or empty, and so agrees exactly with get, in every JSON text and every JSON lines document also for paths with modifiers that take arguments: every sequence of bytes as a path such that each modifier called in it or in a path inside of it (behind a separator, in a query, in a multipath, in what follows #.) is one that makes JSON of all JSON, that is, every modifier other than @flatten, @join and @pretty with any argument, @flatten with deep, @join without preserve and @pretty with white space as indent and prefix, these three with a JSON text or nothing as the argument. If there is nothing between the brackets of the empty arrays and objects in the document, then this is also so with @flatten without deep, and the result is again a value of this kind; what ugly makes of any JSON text is of this kind, and so is what pretty makes of it with white space as indent and prefix.", "quantifier": "every JSON text, every sequence of bytes as a path with such modifiers", "why_tests_cant": "The modifiers can stand anywhere in a path, in paths nested to any depth, and be applied to what other modifiers wrote; tests try a few combinations on a few documents.", "anchors": ["src/lib.rs: get", "src/modifiers.rs: exec, mod_flatten, mod_join, mod_pretty", "src/multipath.rs: exec"]}
{"id": "C73", "title": "What is read from any text, JSON or not, and what modifiers make of it", "statement": "For every sequence of bytes parse takes exactly one text out of it, given by a grammar that does not ask for JSON: blanks are skipped; behind an opening bracket everything up to the end belongs to the value; a string reaches to its closing quote, a number goes on as long as there are digits, points, signs and e, the first byte of true, null or false takes four or five bytes whatever they are; else there is nothing. The elements of every array that the library hands out are the values met behind its bracket, where blanks, commas and colons separate, until a closing bracket of any kind or a place where there is no value; brackets inside must be closed, by brackets of any kind; the members of an object are these values two by two, one left over is dropped. For every modifier other than @pretty (unknown names included), every argument and every text, the text it makes is given by rules on this grammar, exactly one for each, and a path that is such a modifier gives what parse takes from it.", "quantifier": "every sequence of bytes as text and as argument, every modifier name but pretty, every array and object handed out", "why_tests_cant": "The text is arbitrary: it can be broken at any place, nested to any depth, and the modifiers read arguments that may be broken too.", "anchors": ["src/lib.rs: parse, Value::each, Value::array, for_each, scan_number, scan_string, scan_squash", "src/modifiers.rs: exec, mod_reverse, mod_flatten, mod_join, mod_ugly, mod_valid, mod_this"]}
{"id": "C74", "title": "What every path finds in any text", "statement": "There is one relation between texts, paths and result texts, given by rules that do not ask for JSON: searching among members (what is not a string is skipped where a key is expected; blanks and colons are skipped behind a key; a key without a value ends the search; the search goes into values that are not closed, and if nothing is found there reading goes on at the beginning of that value), elements by index, #, queries, JSON lines, modifiers (C73), multipaths, and applying the rest of the path to what was found. Whatever the relation gives is what get returns: text, kind and existence; it gives at most one text. For every sequence of bytes as the text and every sequence of bytes without @ as the path, the relation and get agree exactly. With modifiers in the path, other than @pretty, they agree exactly in every text that does not begin with a string that is never closed. (There a modifier gives a value that does not exist but is of the kind of strings; the text of every result is told by the rules there too, so for paths without @pretty the text is told for every sequence of bytes as the text.) Where the relation of C71 gives a result, it is the same.", "quantifier": "every sequence of bytes as text, every sequence of bytes as path (without @pretty)", "why_tests_cant": "Text and path are both arbitrary byte strings; the behaviour on broken texts depends on where they break and on the path at once.", "anchors": ["src/lib.rs: get, proc_value, get_obj, key_match, get_arr, query_matches", "src/path.rs: path_next, next_group, query_parts", "src/modifiers.rs: exec", "src/multipath.rs: exec"]}
{"id": "C75", "title": "From any text and path to strings and numbers, through any chain of calls", "statement": "For every sequence of bytes as the text: if the rules of C74 give the text r for a path, then get returns a value that is told by r alone: its text is r, its kind is given by the first byte of r, it exists exactly if r is not empty, and str(), i64(), u64(), f64() and bool() return exactly what the rules of C69 read from r; an empty r reads as the empty string, 0 and false. (The narrower integers and f32() follow from these: each is the nearest value of its range, except that i32() is -2^31 from 2^31 on.) For every path without @ in every text there is such an r, and for every path without @pretty in every text that does not begin with a string that is never closed. The same holds for get on any value that was handed out, with its own text in place of the document, so for any number of such calls one after the other; for parse of such a text; for the elements of every array and the keys and values of every object that is handed out, with the texts met behind its bracket; array() returns these elements, and each() walks through them, calling any callback on one after the other until it says to stop.", "quantifier": "every sequence of bytes as text and as path (without @pretty), every value handed out by parse, get, array or each", "why_tests_cant": "Text and path are arbitrary, and the values are read after chains of calls of any length; tests see a few documents and a few accessors.", "anchors": ["src/lib.rs: get, parse, Value::get, Value::array, Value::each, Value::str, Value::i64, Value::u64, Value::f64, Value::bool"]}
{"id": "C76", "title": "How values taken from any texts compare", "statement": "For every two values that exist and that the library hands out (from any texts, by any chain of parse, get, array and each), and for every two results of get that the rules of C74 give, found or missing, the order (Ord, PartialEq) is told by the two texts alone: first by the kind that the first byte gives (null or missing, false, number, string, true, array, object), strings by what C69 reads from them, numbers by the 64-bit float that C69 reads from them, all others by their text byte for byte; exactly one of less, equal and greater is told, swapping swaps it, less is transitive, and equal values stand in the same order to every third.", "quantifier": "every two (three) values handed out from any sequences of bytes", "why_tests_cant": "The values may come from different texts, broken or not; order laws speak about all triples.", "anchors": ["src/lib.rs: Ord for Value, PartialEq for Value, Kind"]}
