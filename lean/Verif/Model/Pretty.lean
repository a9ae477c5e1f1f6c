import Verif.Model.Value
/-
Model of /repo/src/pretty.rs.

`buf: &mut Vec<u8>` becomes a value that is passed in and returned. `i64`
counters (`width`, `nl`, `max`, `tabs`) are `Int`; their overflow (buffers of
2^63 bytes) is not modelled, the wrapping cast `width as i64` is.
-/
namespace Gjson

/-- pretty.rs:12 `MAX_DEPTH`. -/
def MAX_DEPTH : Nat := 500

/-- pretty.rs:14-31 `InnerOptions` / `PrettyOptions`. -/
structure PrettyOptions where
  width : Int
  pfx : Bytes
  indent : Bytes
  sortKeys : Bool
deriving DecidableEq, Repr

/-- pretty.rs:33-44 `PrettyOptions::default`. -/
def PrettyOptions.default : PrettyOptions := ⟨80, [], b!"  ", false⟩

/-- pretty.rs:50-53 `width`: `width as i64` of a 64-bit `usize`. -/
def PrettyOptions.setWidth (o : PrettyOptions) (w : Nat) : PrettyOptions :=
  { o with width := Int.bmod w (2 ^ 64) }

/-- pretty.rs:457-462: walk back over backslashes from `j`; returns the index of
the first other byte. `j -= 1` at 0 is a panic. -/
def backslashRun (src : Bytes) : Nat → Nat → Res Nat
  | 0, _ => outOfFuel
  | n + 1, j => do
    let c ← idx src j
    if c ≠ c! '\\' then .ok j
    else if j = 0 then rpanic
    else backslashRun src n (j - 1)

/-- pretty.rs:453-468: copy a string after its opening quote; returns the index
of the closing quote (or the length) and the output. -/
def uglyString (src : Bytes) : Nat → Nat → Bytes → Res (Nat × Bytes)
  | 0, _, _ => outOfFuel
  | n + 1, i, dst =>
    if i < src.length then do
      let c ← idx src i
      let dst := dst ++ [c]
      if c = c! '"' then
        if i = 0 then rpanic
        else do
          let j ← backslashRun src (src.length + 1) (i - 1)
          if (i - j) % 2 ≠ 0 then .ok (i, dst)
          else uglyString src n (i + 1) dst
      else uglyString src n (i + 1) dst
    else .ok (i, dst)

/-- pretty.rs:448-472: the main loop of `ugly`. -/
def uglyLoop (src : Bytes) : Nat → Nat → Bytes → Res Bytes
  | 0, _, _ => outOfFuel
  | n + 1, i, dst =>
    if i < src.length then do
      let c ← idx src i
      if c > c! ' ' then
        let dst := dst ++ [c]
        if c = c! '"' then do
          let (i, dst) ← uglyString src (src.length + 1) (i + 1) dst
          uglyLoop src n (i + 1) dst
        else uglyLoop src n (i + 1) dst
      else uglyLoop src n (i + 1) dst
    else .ok dst

/-- pretty.rs:444-474 `ugly` (public as `tools::ugly`). -/
def ugly (json : Bytes) : Res Bytes := uglyLoop json (json.length + 1) 0 []

/-- What the `extend_pretty_*` functions return, with the buffer:
(buf, next index, nl, ok). pretty.rs:124, 197, 230, 271. -/
abbrev PRes := Res (Bytes × Nat × Int × Bool)

/-- pretty.rs:202-211: count the backslashes between `s` and `j`. -/
def prettyBackslashes (json : Bytes) (s : Nat) : Nat → Nat → Nat → Res Nat
  | 0, _, _ => outOfFuel
  | n + 1, j, sc =>
    if j > s then do
      let c ← idx json j
      if c = c! '\\' then prettyBackslashes json s n (j - 1) (sc + 1)
      else .ok sc
    else .ok sc

/-- pretty.rs:200-220: find the end of the string that starts at `s`. -/
def prettyStringEnd (json : Bytes) (s : Nat) : Nat → Nat → Res Nat
  | 0, _ => outOfFuel
  | n + 1, i =>
    if i < json.length then do
      let c ← idx json i
      if c = c! '"' then
        if i = 0 then rpanic
        else do
          let sc ← prettyBackslashes json s (json.length + 1) (i - 1) 0
          if sc % 2 = 1 then prettyStringEnd json s n (i + 1)
          else .ok (i + 1)
      else prettyStringEnd json s n (i + 1)
    else .ok i

/-- pretty.rs:192-223 `extend_pretty_string`. -/
def prettyString (buf json : Bytes) (i : Nat) (nl : Int) : PRes := do
  let e ← prettyStringEnd json i (json.length + 1) (i + 1)
  let v ← slice json i e
  .ok (buf ++ v, e, nl, true)

/-- pretty.rs:233-243: find the end of a number. -/
def prettyNumberEnd (json : Bytes) : Nat → Nat → Res Nat
  | 0, _ => outOfFuel
  | n + 1, i =>
    if i < json.length then do
      let c ← idx json i
      if c ≤ c! ' ' ∨ c = c! ',' ∨ c = c! ':' ∨ c = c! ']' ∨ c = c! '}' then .ok i
      else prettyNumberEnd json n (i + 1)
    else .ok i

/-- pretty.rs:225-246 `extend_pretty_number`. -/
def prettyNumber (buf json : Bytes) (i : Nat) (nl : Int) : PRes := do
  let e ← prettyNumberEnd json (json.length + 1) (i + 1)
  let v ← slice json i e
  .ok (buf ++ v, e, nl, true)

/-- pretty.rs:439-441: `for _ in 0..tabs { buf.extend(indent) }`. -/
def repeatBytes : Nat → Bytes → Bytes
  | 0, _ => []
  | n + 1, b => b ++ repeatBytes n b

/-- pretty.rs:435-442 `extend_tabs` (an empty range when `tabs <= 0`). -/
def extendTabs (buf pfx indent : Bytes) (tabs : Int) : Bytes :=
  (if pfx.length ≠ 0 then buf ++ pfx else buf) ++ repeatBytes tabs.toNat indent

/-- pretty.rs:248-254 `Pair`. -/
structure Pair where
  kstart : Nat
  kend : Nat
  vstart : Nat
  vend : Nat
deriving DecidableEq, Repr

/-- pretty.rs:413-420: "a before or equal b" of the comparator. -/
def pairLe (a b : Bytes × Pair) : Bool :=
  match cmpBytes a.1 b.1 with
  | .lt => true
  | .gt => false
  | .eq => a.2.vstart ≤ b.2.vstart

/-- pretty.rs:413-414: the raw key of a pair, `json[kstart + 1..kend - 1]`. -/
def pairKey (json : Bytes) (p : Pair) : Res Bytes :=
  if p.kend = 0 then rpanic else slice json (p.kstart + 1) (p.kend - 1)

/-- Insert into a sorted list, before the first element that is not smaller.
For `sort_by` at pretty.rs:412. -/
def insertPair (a : Bytes × Pair) : List (Bytes × Pair) → List (Bytes × Pair)
  | [] => [a]
  | b :: r => if pairLe a b then a :: b :: r else b :: insertPair a r

/-- Stable insertion sort: Rust `slice::sort_by` as a function of its input.
Used at pretty.rs:412. -/
def sortByKey : List (Bytes × Pair) → List (Bytes × Pair)
  | [] => []
  | a :: r => insertPair a (sortByKey r)

/-- pretty.rs:412-421: `pairs.sort_by(..)`. The comparator is a total order, so
the result does not depend on the sorting algorithm; keys are only sliced when
there are two or more pairs to compare. -/
def sortPairList (json : Bytes) (pairs : List Pair) : Res (List Pair) :=
  if pairs.length < 2 then .ok pairs
  else do
    let keyed ← pairs.mapM fun p => do
      let k ← pairKey json p
      .ok (k, p)
    .ok ((sortByKey keyed).map Prod.snd)

/-- pretty.rs:422-430: concatenate the values in the new order. -/
def joinPairs (buf : Bytes) : List Pair → Res Bytes
  | [] => .ok []
  | [p] => slice buf p.vstart p.vend
  | p :: q :: r => do
    let v ← slice buf p.vstart p.vend
    let rest ← joinPairs buf (q :: r)
    .ok (v ++ [c! ',', c! '\n'] ++ rest)

/-- pretty.rs:406-433 `sort_pairs`: the new buffer. (`vend - vstart` at 422 is
only a capacity.) -/
def sortPairs (json buf : Bytes) (pairs : List Pair) : Res Bytes :=
  match pairs with
  | [] => .ok buf
  | p0 :: _ => do
    let sorted ← sortPairList json pairs
    let nbuf ← joinPairs buf sorted
    .ok (buf.take p0.vstart ++ nbuf)

/-- Parameters of one `extend_pretty_*` call that do not change inside it. pretty.rs:256-271. -/
structure PArgs where
  pretty : Bool
  width : Int
  pfx : Bytes
  indent : Bytes
  sortKeys : Bool
deriving DecidableEq, Repr

/-- The last byte of the buffer, `buf[buf.len() - 1]`. Used at pretty.rs:328, 332, 349. -/
def lastByte (buf : Bytes) : Res UInt8 :=
  if buf.length = 0 then rpanic else idx buf (buf.length - 1)

/-- Type of `extend_pretty_any` with the fixed text:
args, tabs, max, depth, buf, i, nl. pretty.rs:111-124. -/
abbrev PrettyFn := PArgs → Int → Int → Nat → Bytes → Nat → Int → PRes

/-- pretty.rs:326-331: the line break before a closing bracket: (nl, buf). -/
def closeLine (nl : Int) (buf : Bytes) (n : Nat) : Res (Int × Bytes) :=
  if n > 0 then do
    let l ← lastByte buf
    .ok ((buf.length : Int), if l ≠ c! ' ' then buf ++ [c! '\n'] else buf)
  else .ok (nl, buf)

/-- pretty.rs:322-325: the members of an object in their final order. -/
def closeSort (json : Bytes) (opn : UInt8) (a : PArgs) (buf : Bytes) (pairs : List Pair) : Res Bytes :=
  if opn = c! '{' ∧ a.sortKeys then sortPairs json buf pairs else .ok buf

/-- pretty.rs:321-338: the end of an array or object at its closing bracket. -/
def prettyClose (json : Bytes) (opn cls : UInt8) (a : PArgs) (tabs : Int) (i : Nat) (nl : Int) (buf : Bytes)
    (pairs : List Pair) (n : Nat) : PRes :=
  if a.pretty then do
    let buf ← closeSort json opn a buf pairs
    let (nl, buf) ← closeLine nl buf n
    let l ← lastByte buf
    let buf := if l ≠ opn then extendTabs buf a.pfx a.indent tabs else buf
    .ok (buf ++ [cls], i + 1, nl, opn ≠ c! '{')
  else .ok (buf ++ [cls], i + 1, nl, opn ≠ c! '{')

/-- pretty.rs:340-345: the separator before every element but the first. -/
def prettySep (opn : UInt8) (a : PArgs) (buf : Bytes) (n : Nat) : Bytes :=
  if n > 0 then
    if a.width ≠ -1 ∧ opn = c! '[' then buf ++ [c! ','] ++ [c! ' '] else buf ++ [c! ',']
  else buf

/-- pretty.rs:347-354: the line break before an element: (nl, buf). -/
def prettyLine (a : PArgs) (nl : Int) (buf : Bytes) : Res (Int × Bytes) :=
  if a.pretty then do
    let l ← lastByte buf
    .ok ((buf.length : Int), if l = c! ' ' then buf.take (buf.length - 1) ++ [c! '\n'] else buf ++ [c! '\n'])
  else .ok (nl, buf)

/-- pretty.rs:359: the indentation before an element. -/
def prettyIndent (a : PArgs) (tabs : Int) (buf : Bytes) : Bytes :=
  if a.pretty then extendTabs buf a.pfx a.indent (tabs + 1) else buf

/-- pretty.rs:361-373: the key of a member and its colon: (buf, i, nl, kend). -/
def prettyKey (json : Bytes) (opn : UInt8) (a : PArgs) (buf : Bytes) (i : Nat) (nl : Int) :
    Res (Bytes × Nat × Int × Nat) :=
  if opn = c! '{' then do
    let (buf, i, nl, _) ← prettyString buf json i nl
    let buf := buf ++ [c! ':']
    .ok (if a.pretty then buf ++ [c! ' '] else buf, i, nl, if a.sortKeys then i else 0)
  else .ok (buf, i, nl, 0)

/-- pretty.rs:355-358 and 392-397: the recorded ranges of the members; `kstart` and
`vstart` are only set (and the pair only recorded) when keys are to be sorted. -/
def prettyPairs (opn : UInt8) (a : PArgs) (pairs : List Pair) (kstart kend vstart vend : Nat) : List Pair :=
  if a.pretty ∧ opn = c! '{' ∧ a.sortKeys ∧ kstart ≤ kend ∧ vstart ≤ vend
  then pairs ++ [⟨kstart, kend, vstart, vend⟩] else pairs

/-- pretty.rs:316-403: the main loop of `extend_pretty_object`; `any` is
`extend_pretty_any`. State: i, nl, buf, pairs, n. -/
def prettyObjLoop (any : PrettyFn) (json : Bytes) (opn cls : UInt8) (a : PArgs)
    (tabs max : Int) (depth : Nat) : Nat → Nat → Int → Bytes → List Pair → Nat → PRes
  | 0, _, _, _, _, _ => outOfFuel
  | fuel + 1, i, nl, buf, pairs, n =>
    if i < json.length then do
      let c ← idx json i
      if c ≤ c! ' ' then prettyObjLoop any json opn cls a tabs max depth fuel (i + 1) nl buf pairs n
      else if c = cls then prettyClose json opn cls a tabs i nl buf pairs n
      else if opn = c! '[' ∨ c = c! '"' then do
        let (nl, buf) ← prettyLine a nl (prettySep opn a buf n)
        let kstart := i
        let vstart := buf.length
        let (buf, i, nl, kend) ← prettyKey json opn a (prettyIndent a tabs buf) i nl
        let (buf, i, nl, ok) ← any a (tabs + 1) max depth buf i nl     -- 374-391
        if max ≠ -1 ∧ !ok then .ok (buf, i, nl, false)
        else if i = 0 then rpanic                 -- 398-401: `i -= 1; n += 1; ... i += 1`
        else
          let pairs := prettyPairs opn a pairs kstart kend vstart buf.length
          prettyObjLoop any json opn cls a tabs max depth fuel (i - 1 + 1) nl buf pairs (n + 1)
      else prettyObjLoop any json opn cls a tabs max depth fuel (i + 1) nl buf pairs n
    else .ok (buf, i, nl, opn ≠ c! '{')

/-- pretty.rs:256-404 `extend_pretty_object`. The first argument bounds the
single-line retry (line 284), which calls the function again with
`pretty = false` and therefore does not retry a second time. -/
def prettyObj (any : PrettyFn) (json : Bytes) :
    Nat → UInt8 → UInt8 → PArgs → Int → Int → Nat → Bytes → Nat → Int → PRes
  | 0, _, _, _, _, _, _, _, _, _ => outOfFuel
  | k + 1, opn, cls, a, tabs, max, depth, buf, i, nl =>
    if depth = MAX_DEPTH then do                                        -- 272-276
      let rest ← sliceFrom json i
      let fragment ← ugly rest
      .ok (buf ++ fragment, json.length, nl, true)
    else
      let body : PRes := prettyObjLoop any json opn cls a tabs max depth (json.length + 1)
        (i + 1) nl (buf ++ [opn]) [] 0                                  -- 312-315
      if a.width > 0 then
        if a.pretty ∧ opn = c! '[' ∧ max = -1 then                      -- 279-307
          let max := a.width - ((buf.length : Int) - nl)
          if max > 3 then do
            let (buf1, i1, _, ok) ← prettyObj any json k c! '[' c! ']'
              { a with pretty := false, indent := [] } 0 max depth buf i 0
            if ok ∧ (buf1.length : Int) - (buf.length : Int) ≤ max then .ok (buf1, i1, nl, true)
            else body                                                   -- buf.truncate(s1); i = s2
          else body
        else if max ≠ -1 ∧ opn = c! '{' then .ok (buf, i, nl, false)    -- 308-310
        else body
      else body

/-- pretty.rs:125-189: the loop of `extend_pretty_any`; `any` is the recursive
`extend_pretty_any` handed to nested arrays and objects. -/
def prettyAnyLoop (any : PrettyFn) (json : Bytes) (a : PArgs) (tabs max : Int) (depth : Nat)
    (buf : Bytes) (nl : Int) : Nat → Nat → PRes
  | 0, _ => outOfFuel
  | n + 1, i =>
    if i < json.length then do
      let c ← idx json i
      if c ≤ c! ' ' then prettyAnyLoop any json a tabs max depth buf nl n (i + 1)
      else if c = c! '"' then prettyString buf json i nl
      else if (c ≥ c! '0' ∧ c ≤ c! '9') ∨ c = c! '-' then prettyNumber buf json i nl
      else if c = c! '{' then prettyObj any json 2 c! '{' c! '}' a tabs max (depth + 1) buf i nl
      else if c = c! '[' then prettyObj any json 2 c! '[' c! ']' a tabs max (depth + 1) buf i nl
      else if c = c! 't' then .ok (buf ++ b!"true", i + 4, nl, true)
      else if c = c! 'f' then .ok (buf ++ b!"false", i + 5, nl, true)
      else if c = c! 'n' then .ok (buf ++ b!"null", i + 4, nl, true)
      else prettyAnyLoop any json a tabs max depth buf nl n (i + 1)
    else .ok (buf, i, nl, true)

/-- pretty.rs:111-190 `extend_pretty_any`. The first argument bounds the nesting
of the recursion. -/
def prettyAny (json : Bytes) : Nat → PrettyFn
  | 0 => fun _ _ _ _ _ _ _ => outOfFuel
  | d + 1 => fun a tabs max depth buf i nl =>
    prettyAnyLoop (prettyAny json d) json a tabs max depth buf nl (json.length + 1) i

/-- pretty.rs:66-71 and 81-109 `PrettyOptions::pretty` / `pretty_options`. -/
def prettyOptions (json : Bytes) (o : PrettyOptions) : Res Bytes := do
  let buf := if o.pfx.length ≠ 0 then o.pfx else []
  let a : PArgs := ⟨true, o.width, o.pfx, o.indent, o.sortKeys⟩
  let (buf, _, _, _) ← prettyAny json (json.length + 1) a 0 (-1) 0 buf 0 0
  .ok (if buf.length > 0 then buf ++ [c! '\n'] else buf)

/-- pretty.rs:74-79 `pretty` (public as `tools::pretty`). -/
def pretty (json : Bytes) : Res Bytes := prettyOptions json PrettyOptions.default

end Gjson
