# Design: a formal model of tidwall/gjson.rs in Lean 4

## Approach

* `lean/Verif/Model/*.lean` models `/repo/src` function by function. Texts are
  `List UInt8`, positions are `Nat` indexes into the same text the Rust code
  indexes (no re-structuring into token streams), slices are explicit.
* Every index, slice and unchecked read goes through a checked operation in
  `Res = Except Fault`, with `Fault.panic` (Rust bounds-check/arith panic),
  `Fault.oob` (`get_unchecked` outside the buffer) and `Fault.fuel` (a Rust
  loop or recursion that has not stopped within the stated bound). Totality
  properties say that no fault is ever produced.
* Rust loops become structurally recursive functions with a fuel argument; the
  public entry points supply a fuel computed from the input, and theorems show
  that it always suffices. Mutual recursion `get -> modifiers/multipath/query
  -> get` is cut by open recursion: helpers take the recursive `get` as a
  parameter and `getN (n+1) = getBody (getN n)`.
* `lean/Verif/Spec.lean` holds the specification (RFC 8259 grammar, array and
  object texts, wildcard semantics, escape decoding, UTF-8 ...), independent of
  the model.
* `lean/Verif/Lemmas/*.lean` relates the index-based model to list suffixes.
* `lean/Verif/Props/*.lean` holds the property theorems, with examples that
  meet their hypotheses, and refutations where the code violates the property.

## Plan per property

| id | modelled | proof |
|----|----------|-------|
| C01 | all of valid.rs, chunked loops included | induction on fuel (soundness), on the grammar derivation (completeness) |
| C02 | valid.rs, parse, scanners | totality of every loop by measure `len - i` |
| C03 | whole of get | fuel bound by path length; recursion arguments are shorter paths |
| C04 | whole of get with explicit panics | Hoare-style postconditions per function; expected false for `@pretty` prefixes, then partial + witness |
| C05 | Value accessors | expected false for unterminated strings from parse; partial for existing values + witness |
| C06-C09 | get, get_obj, get_arr, path_next | induction over members/elements/path against the grammar |
| C10 | same | false (scan resumes inside the failed value); witness; exact description of the search for all documents (`SpecSearch.lean`, mutual induction on `Find`/`Walk`), and as a corollary the claim for documents whose path keys are not nested |
| C11-C12 | get, Value::get, parse | corollaries / unfolding of get |
| C13-C15 | for_each callbacks, query_parts, query_matches | induction over elements; case analysis |
| C16-C17 | pmatch, key_match, lookups in an object | induction on pattern and name against a declarative relation; for all components and all keys what is found as the code matches (`C16_get_exact`, `C17_exact`) |
| C18 | get_arr with lines | as C07/C08 |
| C19 | slices | postcondition `json() is an infix` on all inputs |
| C20 | Value | direct |
| C21-C23 | escape, unescape | induction over the string; surrogate decoding expected false for even planes, witness + partial |
| C24-C25 | integer parsing, clamps | induction over decimal digits; i32 expected false above 2^31-1 |
| C26 | Ord for Value | lexicographic order laws; what decides for each kind (strings by content, numbers by value, the others by text); f64 comparison modelled as exact rationals |
| C27-C28 | for_each with callbacks | induction over elements/members |
| C29-C34 | modifiers.rs, pretty.rs | induction over the grammar; flatten/join expected false at the edges |
| C35 | multipath.rs | induction over the component list |
| C36-C37 | UTF-8 predicate; `Read`/`CutsChar` (bytes of a `\u` escape ending inside a character) | witnesses for malformed input; partial for valid text; exact condition for `unescape`; any text for paths of keys, patterns and indexes; induction over the rules of C48 for all modifiers (`Lemmas/MeansUtf8.lean`); all modifiers on JSON and all texts of whole tokens (`C36_tokens_partial`, see C59) |
| C38 | sort_pairs | permutation + sortedness; at any depth: sorted up to the first value nested 500 deep (`Doc.sortLim`) |
| C39 | bool table | case analysis |
| C40 | parse/get/valid | corollaries |
| C41 | get, all of search, multipaths, modifiers | invariant of `get` (`Inv` in Lemmas/Inv.lean) by induction on the path; provenance of results |
| C42 | Value::f64, f32, i64, u64, cmp, queries on numbers; number parsing of the standard library | rounding of exact rationals against IEEE 754 nearest/ties-to-even (`SpecNum.lean`), monotonicity |
| C43 | all of pretty.rs, `@pretty` | induction over the document against a layout function on document trees (`SpecLayout.lean`); `Doc.cut` says what the depth limit of 500 does to it; idempotence from both |
| C44 | get, get_obj, get_arr, next, next_group | one step into an object or array for an arbitrary rest of the path, induction over the components (`Lemmas/Prefix.lean`); the pipe by a relation between the two searches (`Lemmas/PipeAny.lean`) |
| C45 | query_matches, Value::bool | case analysis over operators and truth values; C14 for the split of an array |
| C46 | Value::f64/i64/u64, raw_to_*, std number parsers | the parsers of Num.lean accept exactly the grammar of SpecNum (both directions), for arbitrary text |
| C47 | unescape, utf16_decode, Value::str | spec `Shown` (SpecStr) covers every literal; induction that `unescape` follows it |
| C48 | everything `get` does | inductive rules for whole paths over texts (`SpecPath.lean`, `SpecQuery.lean`); soundness by mutual induction over the derivation (`Lemmas/Rules.lean`, `Reads.lean`, `RulesMods.lean`, `Means.lean`); existence of a derivation by induction over the length of the path (grammar in `SpecRoute.lean`) |
| C49 | everything `get` does | two derivations of the rules of C48 built side by side for two texts of the same document, by induction over the length of the path (`Lemmas/Peer.lean`); a document is determined by its tokens; witness for `@flatten` |
| C50 | `pretty.rs`, `mod_pretty` | `Spec.SameMembers` (`SpecOrder.lean`) compares documents key by key; two documents are related iff sorting makes them equal (a sorted list is determined by its members for each key), then C38 and C43; witness at depth 500 |
| C51 | `get` on dot paths | the search of C10 (`Spec.Find`) followed side by side in two texts (`Lemmas/Reorder.lean`): the entries with a given key are met in the same order; witnesses for wildcards and for keys written in two ways |
| C52 | `valid`, `pretty_options`, `mod_flatten` with a limit on active calls (`Model/Depth.lean`) | `Spec.Doc.levels`, `Doc.arrays` and `opens` (`SpecDepth.lean`) count the nesting; induction over the document for the exact depth (`Lemmas/Depth.lean`), over the limit for "more room changes nothing" |
| C53 | `get` with all of its parts; `pretty_options`, `ugly` | `Spec.ink`, `Spec.prettyInk` (`SpecInk.lean`) list the bytes; `Lemmas/Closed.lean` shows for any property of texts that is kept by cutting, by wrapping into arrays and objects and by the modifiers that all results have it; `Lemmas/Ink.lean` shows it for "made of these bytes"; the same with "ASCII" gives C36 for all ASCII texts and paths |
| C54 | `get_obj`, `proc_value`, the first part of `get`, with a count of the calls (`Model/Work.lean`; without the count it is the model of the search, `C54_same_results`) | `Spec.choices`, `dots`, `nest`, `chain` (`SpecWork.lean`); induction over the loop with the number of brackets ahead as measure; the worst case by induction over the nesting |
| C55 | `get` and `get_obj` with one limit on the calls active at once (`getWithin`, `objWithin` in `Model/Depth.lean`) | `C55_path_bound`: with room for two calls more than the path is long the result is that of `get`, for every text and path, by strong induction over the room: the body of `get` calls `get` only with shorter paths or option names, and `get_obj` calls itself only for what follows a dot. `C55_limit`: any limit is exceeded or makes no difference, by monotonicity of every function between two calls. `C55_attained`: `m` pipes on `{"":{"":…}}` (`Spec.unnamed`) take `m + 2` calls |
| C56 | `get` on texts of which only the beginning is known | `Spec.Reached` (`SpecOpen.lean`): a path followed in a text that may break off; the scanners pass whole values and stop at the value found (`Lemmas/Open.lean`), induction over `Reached`; `C56_cut` from `Spec.Leads`: what a document has after the value found does not matter; witnesses for the two limits |
| C57 | the length of everything `get`, `pretty` and `ugly` return | `C57_result_bound` by strong induction over the length of the path (`Lemmas/Size.lean`): a search yields pieces of the text, an array or object of results costs its own characters of the path, and every modifier is paid for by its name and argument; `Lemmas/SizeMods.lean` bounds the modifiers from the slices they are built of (slices one after the other in the text), `Lemmas/SizePretty.lean` the printer: each byte read pays for one line, where nesting is at most 500 because deeper parts are copied. `C57_growth`: `[@this,@this]` repeated doubles the result, for every JSON value |
| C58 | `parse`, `Value::get`, `get`, `pretty`, `ugly`, `valid` on any text with whitespace in front | `get_place` (`Lemmas/Lead.lean`): two texts that the search, `..` and each modifier treat alike are treated alike by every path, by strong induction over its length; the search does not depend on where the text stands; `pretty` step by step on the shifted text (`Lemmas/LeadPretty.lean`, recorded ranges included); scalars with whitespace behind (`Lemmas/LeadText.lean`); witness that `parse` loses later values |
| C59 | `get` with all of its parts; `pretty_options`, `ugly` | `Spec.Lexed` (`SpecTokens.lean`): a text is a sequence of whole tokens in which numbers and names do not touch; the induction of C53 (`Lemmas/Closed.lean`) for "made of whole tokens of the text": `Lexed*.lean` show it for the search, the rest of a text from one of its bytes on, each modifier and the printer; kind and text of results from their provenance; the same with "tokens are UTF-8" gives C36 for all modifiers |
| C60 | `get` on arrays (`get_arr` and its three helpers), `for_each`, `array` | values a caller can hold (`Handed`, C12) that are arrays begin with a bracket (`Lemmas/Listed.lean`); then `array` and `get_arr` read the same list of tokens (`toks`), and searching is a function of that list up to positions; multipaths by induction over the paths inside; statements in terms of `array` and `get` on the elements only |
| C61 | `get` with dotted components, `valid` | `Site` (`SpecEdit.lean`) says where in a text components lead; places exist by induction over `Resolves`, stay when the value is exchanged, and components that part still resolve (`Lemmas/Edit.lean`; elements and members of a text are unique because C27/C28 enumerate them); then C09 and C12 on both texts |
| C62 | all ways to obtain a `Value` | values a caller can hold (`Handed`, C12) come from a scanned token, a text put together, a count or `parse` (`Prov`); a token scanned again is itself (`Lemmas/OwnText.lean`), and no search hands out a token without text (`Lemmas/Void.lean`) |
| C63 | `each`/`for_each`, `array`, `get` | the pairs of an object are its members (C28) and `get` finds members by C16 and C17; values and keys are compared through their texts (C62). `HandedDown` is the way down through `array` and `each`; by induction over it with C60, C12 (pipe) and C58 (document); the form with dots (`C63_dotted`) turns the way down into the `Leads` of C10 |
| C64 | `path_next`, `path_next_query`, `path_next_multipath`, `scan_squash`, `Path::new` | grammar `CutUp` (SpecCut.lean) over the balanced texts of Spec.lean; every rule computes `path_next` (`cutUp_eval`), and there is a rule for every path (`cutUp_total`); `scan_squash` finds exactly the balanced texts (`sq_closing`) |
| C65 | `query_parts`, `trim`, `get_arr` | grammar `QueryCut` over `CutAtOp`, `StartsOp`, `TrimOf` (SpecCut.lean); every rule computes `query_parts` (`queryCut_eval`), and there is a rule for every component (`queryCut_exists`); `gArrVals` reads only the parts (`gArrVals_query`) |
| C66 | `next_group`, `get_arr` and everything it calls, `get_json_lines` | grammar `GroupOf` (SpecCut.lean) for the group; `sequence_cut` turns `get` on an array or lines into `gArrVals` on the parts of C64; each shape of first component is then one equation, with the parts of C65 for queries |
| C67 | `get`, `proc_value`, `get_obj`, `key_match`, `get_arr` | relations `Seek`, `Among`, `Picks` (SpecSeek.lean) over the parts of C64 to C66 and the members and elements of the document; the pure search follows them (`seek_reaches`), they have an outcome for every path (`seek_total`, by the length of the path and the size of the entries still to be read), and only one |
| C68 | `modifiers::exec`, `multipath::exec`, `exec_arr`, `exec_obj`, `each_comp`, `key_for_path` | grammars `EntriesOf` and `CallOf` (SpecEntries.lean) over the parts of C64; `each_comp` follows `EntriesOf` by induction on it (`each_entries`), every text has entries (`entriesOf_both`, by its length), and only one list of them because `each_comp` is a function; unlike C35 and C34 no well-formedness of entries or calls is assumed |
| C69 | `unescape`, the accessors | relation `Unquoted` (SpecAny.lean), total on bytes, with the stops of the code made explicit (`Halts`); `unesc` satisfies it (rule induction one way, totality by length the other); the accessors through `Handed.ownText` (C62) and the reading relations of C46 |
| C70 | `query_matches` | relations `RightSide`, `Viewed`, `Answer`, `Answers` (SpecAny.lean) on texts alone; each is shown to have one outcome and to be what the code computes, by cases on kind and operator |
| C71 | `Gjson.get` as a whole | relation `Obtains` on texts (SpecWhole.lean), which puts together `Seek` (C67), `Answers` (C70), `Writes` (C48), `EntriesOf` (C68), by levels, since every path in a path is shorter; soundness by induction on the level, a result for every JSON text by induction on the length of the path, and the two together give an equivalence |
| C72 | `Gjson.get` as a whole, with modifiers that take arguments | `Asked` says which paths are asked when a path is; `Harmless` and `Orderly` are conditions on the modifiers called in them, `Tidy` is the class of values with nothing between the brackets of empty arrays and objects (SpecWhole.lean); the induction on the length of the path is done once for every class of JSON values that is closed under taking parts and putting together (`Stock`, Lemmas/WholeTotal.lean), for all JSON values and for tidy ones. that `pretty` writes tidy values is an induction over the layout of C43 (Lemmas/LaidTidy.lean); `@join` with `preserve` is left out, it writes a bare comma for an empty object (C33) |
| C73 | `parse`, `each`, `array`, the modifiers, on any text | relations `ValueAt`, `Parsed`, `Listing`, `Spans`, `Turns` (SpecText.lean), a grammar of what is read rather than of JSON; each is shown to have one outcome for every text (induction on its length) and to be what the code computes; `@pretty` is left out for texts that are not JSON (its writer has no such simple description there), for JSON it is C43 and C48 |
| C74 | `Gjson.get` as a whole, on any text | relation `Yields` (SpecText.lean), built like `Obtains` (C71) on `Hunt`/`Probe`/`Look` in place of `Seek`; soundness by induction on the level, a result by induction on the length of the path; texts that begin with an open string are left out where a modifier is called (`Fair`), because there the value that does not exist has the kind of strings (`C74_open_string`); `Brings` adds these texts and tells the text of the result only |
| C75 | `Gjson.get`, `parse`, `Value.get`, `Value.array`, `Value.each` and the accessors together | `ToldBy` (Props/EndToEnd.lean): text, kind, existence and all accessors of a result from one text; C74 gives the text, C69 reads it; the empty text is read by the same rules, which agree with the default value (C20) |
| C76 | `Value.cmp`, `Value.eq` | relation `Ranks` on texts (Props/AnyOrder.lean), from `StrOf`, `F64Of` and the first byte; the laws by C26, as no number that is handed out is read as NaN |

The status of each property, with the names of its theorems, is in
`MANIFEST.json`. A property is `partial` when the code violates it as stated:
there is then a refutation by a concrete witness (a theorem whose name ends in
`_false`) and one or more theorems, with suffix `_partial`, for the inputs on
which it holds.

## Trusted base

* The Lean 4.33.0 kernel. Theorems depend on at most the axioms `propext`,
  `Classical.choice` and `Quot.sound`. There are no axioms of our own, no
  `sorry`, no `native_decide`, no `bv_decide`. `decide +kernel` is used for
  concrete examples, refutation witnesses, and finite tables (all 256 bytes).
* The transcription of the Rust code in `lean/Verif/Model`, function by
  function. Every definition cites the file and lines it models; helpers that
  stand for the Rust standard library cite the lines that call it.
* The reading of the specification files: `Spec.lean` (RFC 8259, UTF-8, paths,
  queries), `SpecDoc.lean` (tokens, documents), `SpecMods.lean` (flatten,
  join), `SpecMulti.lean` (multipaths), `SpecResults.lean` (shape of results),
  `SpecNum.lean` (numbers, IEEE 754 rounding), `SpecSearch.lean` (the search for
  dot paths), `SpecStr.lean` (string decoding and cutting), `SpecLayout.lean`
  (pretty printing), `SpecLim.lean` (limits), `SpecWords.lean` (words in order),
  `SpecQuery.lean` (what accessors read, what queries decide), `SpecPath.lean`
  (what whole paths mean), `SpecRoute.lean` (the paths with a meaning),
  `SpecOrder.lean` (documents up to the order of members), `SpecDepth.lean` (nesting),
  `SpecAny.lean` (decoding, reading and comparing texts of any kind), `SpecCut.lean`
  (how paths are cut), `SpecSeek.lean` (the search for any path), `SpecEntries.lean`
  (multipath entries and calls), `SpecEdit.lean`, `SpecInk.lean`, `SpecOpen.lean`,
  `SpecTokens.lean`, `SpecWork.lean` (see the rows that name them).
* For the Rust standard library: `str::parse` to `i64`, `u64`, `f64`, `as`
  casts, `from_str_radix`, `char::from_u32`, `encode_utf8`, `str` comparison,
  `sort_by` (with a total order), `HashMap` insert/get are modelled by their documented
  behaviour (`Model/Num.lean`, `Model/Util.lean`, comments at each place).
  `f64` is modelled exactly: a finite double is an integer multiple of 2^-1074,
  parsing rounds the exact rational half to even. C42 relates this to an
  independent statement of IEEE 754 rounding; that Rust's parser and `as f32`
  round correctly is trusted.

### Modelled

| file | modelled | not modelled |
|------|----------|--------------|
| src/valid.rs | everything, chunked fast paths included | - |
| src/util.rs | everything | - |
| src/path.rs | everything else | `Display` for `Path` (for debugging, not called) |
| src/lib.rs | everything | - |
| src/modifiers.rs | everything | allocation capacities |
| src/multipath.rs | everything | - |
| src/pretty.rs | everything | `i64` overflow of column counters, which needs texts of 2^63 bytes |
| src/tools.rs | re-exports only | - |

Not modelled anywhere: stack exhaustion by recursion (how deep calls nest is C03 and
C52 and C55; the stack that a call takes is not modelled), time (the number of calls of a search
is C54), running out of memory,
`usize` and `i32` overflow of counters (needs texts above 2^31 bytes), and the
undefined behaviour that follows when `from_utf8_unchecked` receives invalid
UTF-8. The last is what C36 and C37 are about; the model continues with the
bytes. All slicing in the library is on byte slices, so no character boundary
checks take place.

`Value.index` is private and only visible through `@reverse`. Results are
compared by `SameValue`: json, kind, str, i64, u64, f64 and bool are equal.

## Findings

Behaviour of the model of the code that contradicts a stated property (1-12, each
with the named theorems) or that is surprising (13-17, with examples in
`Tests.lean`, `Props/Multi.lean`, `Props/Numbers.lean`, `Props/Prefix.lean` and `Props/Layout.lean`). The code was read, not run. Line numbers
refer to `/repo/src`.

1. A failed nested search goes on inside the value it failed in:
   `get({"a":{"a":{"x":1}}}, "a.x")` is `1`. (`C10_false`, `C11_false`;
   lib.rs:588-600, 655-690)
   As each such value is searched again with the same path, the time can be
   exponential: `a.a.a.….b` on `{"a":{"a":{"a":…}}}` with 40 members takes 2^40
   calls of `get_obj`. (`C54_exponential`)
2. `unescape` decodes surrogate pairs of even planes (U+20000, ...) to the plane
   below, by operator precedence in `utf16_decode`. (`C23_false_even_plane`,
   `C23_even_plane_wrong`, `C06_false`; util.rs:100-106)
3. `i32()` of numbers from 2^31 on is -2147483648: the upper clamp is 2147483648,
   which the cast turns negative. (`C25_false_i32`; lib.rs:270-279)
4. `unescape` skips four bytes after `\u` whatever they are, so it can return
   a `String` that is not UTF-8. (`C37_false`; util.rs:59-76)
5. `t`, `f`, `n` at the start of a value take four or five bytes without
   looking at them; this can cut a character. (`C36_false`; with
   `@pretty` also on JSON texts, `C36_pretty_false`; lib.rs:623-650)
6. A string that is not closed gives a value of kind String with empty text;
   `str()`, the number accessors, `bool()` and comparison panic on it.
   (`C05_false_unclosed`, `C05_get_false`; lib.rs:480-520, 218-268, 333-350)
7. A query whose left side is `@pretty` with a quote as prefix makes such a
   string inside `get`, and evaluating the query panics. (`C04_false`)
8. `\?` in a pattern matches any byte, so the escaped form of a key with `?` can
   find an earlier member with another key. (`C16_false`, `C17_false`; util.rs:182-210)
9. Queries: `true <= true` and `false >= false` do not hold; `""` on the right
   is not unquoted; a missing value matches `~false`. (`C15_bool_false`,
   `C15_empty_false`, `C15_missing_false`; lib.rs:790-872)
10. `@flatten` of `[1,[ ],2]` is `[1, ,2]`. (`C32_false`; modifiers.rs:188-220)
11. `@join:{"preserve":true}` with an empty object gives `{"a":1,,"b":2}`.
    (`C33_false`; modifiers.rs:127-186)
12. `pretty` with `sort_keys` leaves members unsorted in every object that
    encloses one nested 500 deep, and in everything after it. (`C38_false`,
    exactly in `C38_exact`; pretty.rs:256-404)
13. Multipaths split at the last colon outside brackets, so in
    `[@flatten:{"deep":true}]` the modifier is taken for a key. `[]` looks up
    the empty key. A part that ends in a lone backslash is dropped. (beside
    C35; multipath.rs:54-96)
14. Array indexes are read with `str::parse`, so `+1` works like `1` and `01`
    like `1` (lib.rs:764-788); the plain index properties use canonical
    numerals.
15. `f32()` rounds twice, first to binary64 and then to binary32, so it is not
    always the binary32 number nearest to the text. (`C42_f32_twice`;
    lib.rs:234-236)
16. `pretty` counts the line break in front of the first element of an array, and
    of every member, as part of the line, but not in front of later elements. So
    with width 9, `[[1,2,3],[1,2,3]]` prints its first element on five lines
    and the equal second one on one line. (beside C43; pretty.rs:279-307,
    340-354)
17. A multipath closed by the wrong bracket gives nothing and drops the rest of the
    path: `[a}|[x]` gives nothing, though `[x]` on nothing gives `[]`.
    (`C12_mismatched`; multipath.rs:107-110, 129-132)

## Theorems against wrong programs

`seeded/LOG.jsonl` records deliberate bugs put into a scratch copy of the
model, one per line:

- `definition`, `edit`, `claim`: what was changed and what becomes false.
- `theorems_failed`: the proofs that break in the changed copy. These are mostly
  helper lemmas that follow the code, so a failure here alone says little.
- `theorems_not_reached`: property modules that do not build only because they
  import a broken one.
- `statements_shown_false`: property theorems whose statements contradict the
  changed program, whatever their proofs. In the changed copy all proofs are
  taken for granted, the outcome of that id in `Verif/Uses.lean` is derived from
  the statement, and the opposite is evaluated.
- `theorems_tightened`: theorems added or strengthened because a bug survived.
