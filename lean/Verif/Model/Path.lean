import Verif.Model.Value
/-
Model of /repo/src/path.rs and of `proc_value` (lib.rs:571-653), which
`path_next` uses to skip a JSON modifier argument.
-/
namespace Gjson

/-- path.rs:12-19 `Path`. `sep = 0` means "no separator". -/
structure Path where
  comp : Bytes
  esc : Bool
  pat : Bool
  sep : UInt8
  marg : Nat
  extra : Bytes
deriving DecidableEq, Repr

/-- path.rs:174-178 `Path::default()`, i.e. `Path::new("")`: `path_next` on an
empty `extra` (path.rs:271-344) runs no loop iteration. -/
def Path.empty : Path := ⟨[], false, false, 0, 0, []⟩

/-- path.rs:22-24 `more`. -/
def Path.more (p : Path) : Bool := p.sep ≠ 0

/-- path.rs:36-38 `is_modifier`. -/
def Path.isModifier (p : Path) : Bool :=
  match p.comp with
  | [] => false
  | c :: _ => c = c! '@'

/-- path.rs:39-41 `is_multipath`. -/
def Path.isMultipath (p : Path) : Bool :=
  match p.comp with
  | [] => false
  | c :: _ => c = c! '{' ∨ c = c! '['

/-- What `proc_value` returns: (value, next index, remaining path). lib.rs:571-576. -/
abbrev Found := Value × Nat × Path

/-- lib.rs:571-653 `proc_value`. `dive` stands for lines 588-598: compute
`path.next()`; if it is a modifier or multipath return `none`, otherwise run
`get_obj`/`get_arr` at the same index with the next path and return its result.
It is only called when `path.sep == b'.'`, which breaks the cycle
`path_next -> proc_value -> path_next`. -/
def procValue (dive : Nat → Path → Res (Option Found))
    (json : Bytes) (i : Nat) (path : Path) (isMatch : Bool) : Res Found := do
  let c ← idx json i
  if c = c! '"' then do
    let s := i
    let (val, info, i) ← scanString json i
    if isMatch then do
      let v ← jsonFromSlice val (some s) (info ||| INFO_STRING)
      .ok (v, i, path)
    else .ok (Value.default, i, path)
  else if c = c! '{' ∨ c = c! '[' then
    if isMatch then do
      let squash : Res Found := do                       -- lib.rs:601-612
        let s := i
        let (val, i) ← scanSquash json i
        let k ← idx json s
        let kind := if k = c! '{' then INFO_OBJECT else INFO_ARRAY
        let v ← jsonFromSlice val (some s) (0 ||| kind)
        .ok (v, i, path)
      if path.sep = c! '.' then do
        match ← dive i path with
        | none => squash
        | some (res, next_i, next_path) =>
          if res.exists then .ok (res, next_i, next_path)
          else .ok (Value.default, i, path)
      else squash
    else do
      let (_, i) ← scanSquash json i
      .ok (Value.default, i, path)
  else if (c ≥ c! '0' ∧ c ≤ c! '9') ∨ c = c! '-' then do
    let s := i
    let (val, info, i) ← scanNumber json i
    if isMatch then do
      let v ← jsonFromSlice val (some s) (info ||| INFO_NUMBER)
      .ok (v, i, path)
    else .ok (Value.default, i, path)
  else
    -- lib.rs:648-650 and the final expression, after the literal was skipped
    let lit (s i : Nat) (kind : UInt32) : Res Found :=
      if isMatch then do
        let val ← slice json s i
        let v ← jsonFromSlice val (some s) kind
        .ok (v, i, path)
      else .ok (Value.default, i, path)
    if c = c! 't' then
      if i + 3 ≥ json.length then .ok (Value.default, json.length, path)
      else lit i (i + 4) INFO_TRUE
    else if c = c! 'f' then
      if i + 4 ≥ json.length then .ok (Value.default, json.length, path)
      else lit i (i + 5) INFO_FALSE
    else if c = c! 'n' then
      if i + 3 ≥ json.length then .ok (Value.default, json.length, path)
      else lit i (i + 4) INFO_NULL
    else .ok (Value.default, json.length, Path.empty)

/-- `proc_value(json, i, Path::default(), true)`: the form used by `for_each`
(lib.rs:400), `parse` (lib.rs:1129) and `path_next` (path.rs:306). The path has
`sep == 0`, so `dive` is never called (it panics here to make that visible). -/
def procLeaf (json : Bytes) (i : Nat) : Res Found :=
  procValue (fun _ _ => rpanic) json i Path.empty true

/-- path.rs:223-243: the end of `path_next_query`, once `i` and `sep` are known. -/
def pathNextQueryEnd (extra : Bytes) (i : Nat) (sep : UInt8) : Res Path := do
  let rest ← sliceFrom extra (if sep = 0 then i else i + 1)
  let comp ← slice extra 0 i
  if comp.length = 0 then rpanic
  else do
    let last ← idx comp (comp.length - 1)
    if last = c! '#' then
      if comp.length < 2 then rpanic
      else do
        let last2 ← idx comp (comp.length - 2)
        if last2 ≠ c! ')' then .ok Path.empty
        else .ok ⟨comp, false, false, sep, 0, rest⟩
    else if last ≠ c! ')' then .ok Path.empty
    else .ok ⟨comp, false, false, sep, 0, rest⟩

/-- path.rs:192-244 `path_next_query`. -/
def pathNextQuery (extra : Bytes) : Res Path := do
  let c1 ← idx extra 1
  if c1 ≠ c! '(' then .ok Path.empty
  else do
    let (_, i) ← scanSquash extra 1
    if i < extra.length then do
      let c ← idx extra i
      if c = c! '#' then
        if i + 1 < extra.length then do
          let c ← idx extra (i + 1)
          if c = c! '.' ∨ c = c! '|' then pathNextQueryEnd extra (i + 1) c
          else .ok Path.empty
        else pathNextQueryEnd extra (i + 1) 0
      else if c = c! '.' ∨ c = c! '|' then pathNextQueryEnd extra i c
      else .ok Path.empty
    else pathNextQueryEnd extra i 0

/-- path.rs:246-268 `path_next_multipath`. -/
def pathNextMultipath (extra : Bytes) : Res Path := do
  let (_, i) ← scanSquash extra 0
  let noSep : Res Path := do
    let comp ← slice extra 0 i
    let rest ← sliceFrom extra extra.length
    .ok ⟨comp, false, false, 0, 0, rest⟩
  if i = extra.length then noSep
  else do
    let c ← idx extra i
    if c ≠ c! '.' ∧ c ≠ c! '|' then noSep
    else do
      let comp ← slice extra 0 i
      let rest ← sliceFrom extra (i + 1)
      .ok ⟨comp, false, false, c, 0, rest⟩

/-- path.rs:314-321: search the separator after a plain modifier argument;
returns (index, sep). -/
def pathArgLoop (extra : Bytes) : Nat → Nat → Res (Nat × UInt8)
  | 0, _ => outOfFuel
  | n + 1, i =>
    if i < extra.length then do
      let c ← idx extra i
      if c = c! '.' ∨ c = c! '|' then .ok (i + 1, c)
      else pathArgLoop extra n (i + 1)
    else .ok (i, 0)

/-- path.rs:290-331: the main loop of `path_next`; returns
(i, sep, esc, pat, marg). -/
def pathNextLoop (extra : Bytes) (modi : Bool) :
    Nat → Nat → Bool → Bool → Res (Nat × UInt8 × Bool × Bool × Nat)
  | 0, _, _, _ => outOfFuel
  | n + 1, i, esc, pat =>
    if i < extra.length then do
      let c ← idx extra i
      if c = c! '\\' then
        let i := i + 1
        if i = extra.length then .ok (i, 0, true, pat, 0)
        else pathNextLoop extra modi n (i + 1) true pat
      else if modi ∧ c = c! ':' then
        let marg := i
        let i := i + 1
        if i = extra.length then .ok (i, 0, esc, pat, marg)
        else do
          let c ← idx extra i
          if c = c! '{' ∨ c = c! '[' ∨ c = c! '"' then do
            let (_, i, _) ← procLeaf extra i
            if i < extra.length then do
              let c ← idx extra i
              if c = c! '|' ∨ c = c! '.' then .ok (i + 1, c, esc, pat, marg)
              else .ok (i, 0, esc, pat, marg)
            else .ok (i, 0, esc, pat, marg)
          else do
            let (i, sep) ← pathArgLoop extra (extra.length + 1) i
            .ok (i, sep, esc, pat, marg)
      else if c = c! '*' ∨ c = c! '?' then pathNextLoop extra modi n (i + 1) esc true
      else if c = c! '.' ∨ c = c! '|' then .ok (i + 1, c, esc, pat, 0)
      else pathNextLoop extra modi n (i + 1) esc pat
    else .ok (i, 0, esc, pat, 0)

/-- path.rs:290-344: the general case of `path_next`, after the dispatch. -/
def pathNextPlain (extra : Bytes) (modi : Bool) : Res Path := do
  let (i, sep, esc, pat, marg) ← pathNextLoop extra modi (extra.length + 1) 0 false false
  let comp ← if sep = 0 then .ok extra else if i = 0 then rpanic else slice extra 0 (i - 1)
  let rest ← sliceFrom extra i
  .ok ⟨comp, esc, pat, sep, marg, rest⟩

/-- path.rs:271-344 `path_next`. Only `path.extra` is read. -/
def pathNext (extra : Bytes) : Res Path :=
  match extra with
  | [] => pathNextPlain extra false
  | c :: _ =>
    if c = c! '@' then pathNextPlain extra true
    else if c = c! '#' then do
      if extra.length = 1 then pathNextPlain extra false
      else do
        let c1 ← idx extra 1
        if c1 = c! '.' ∨ c1 = c! '|' then pathNextPlain extra false
        else pathNextQuery extra
    else if c = c! '{' ∨ c = c! '[' then pathNextMultipath extra
    else pathNextPlain extra false

/-- path.rs:25-35 `Path::new`. -/
def Path.new (path : Bytes) : Res Path := pathNext path

/-- path.rs:65-69: the loop of `next_group`; returns (len, remaining). -/
def nextGroupLoop : Nat → Nat → Path → Res (Nat × Path)
  | 0, _, _ => outOfFuel
  | n + 1, len, remaining =>
    if remaining.sep = c! '.' then do
      let r ← pathNext remaining.extra
      nextGroupLoop n (len + 1 + r.comp.length) r
    else .ok (len, remaining)

/-- path.rs:59-73 `next_group`: (next group, remaining path). -/
def Path.nextGroup (p : Path) : Res (Bytes × Path) :=
  if p.sep ≠ c! '.' then .ok ([], p)
  else do
    let r ← pathNext p.extra
    let (len, remaining) ← nextGroupLoop (p.extra.length + 1) r.comp.length r
    let group ← slice p.extra 0 len
    .ok (group, { remaining with comp := [] })

/-- path.rs:127-156: the operator match at `query[i]` (outside parentheses);
`some (s, e)` is the operator's range. The `b'('` arm (128-130) is unreachable:
`(` was handled before. -/
def queryOpAt (query : Bytes) (i : Nat) (c : UInt8) : Res (Option (Nat × Nat)) :=
  if c = c! '%' then .ok (some (i, i + 1))
  else if c = c! '!' then
    if i + 1 < query.length then do
      let d ← idx query (i + 1)
      if d = c! '=' ∨ d = c! '%' then .ok (some (i, i + 2)) else .ok (some (i, i + 1))
    else .ok (some (i, i + 1))
  else if c = c! '=' ∨ c = c! '<' ∨ c = c! '>' then
    if i + 1 < query.length then do
      let d ← idx query (i + 1)
      if d = c! '=' then .ok (some (i, i + 2)) else .ok (some (i, i + 1))
    else .ok (some (i, i + 1))
  else .ok none

/-- path.rs:103-167: locate the operator of a query. `none` is falling out of
the loop. -/
def queryOpLoop (query : Bytes) : Nat → Nat → Int → Res (Option (Nat × Nat))
  | 0, _, _ => outOfFuel
  | n + 1, i, depth =>
    if i < query.length then do
      let c ← idx query i
      if c = c! '\\' then
        if i + 1 = query.length then .ok none
        else queryOpLoop query n (i + 2) depth
      else if c = c! '(' then queryOpLoop query n (i + 1) (depth + 1)
      else if c = c! ')' then queryOpLoop query n (i + 1) (depth - 1)
      else if depth > 0 then queryOpLoop query n (i + 1) depth
      else do
        match ← queryOpAt query i c with
        | some se => .ok (some se)
        | none => queryOpLoop query n (i + 1) depth
    else .ok none

/-- path.rs:82-95: the inner contents of the query; `none` is `break 'bad`. -/
def queryInner (comp : Bytes) : Res (Option Bytes) :=
  if comp.length < 2 then .ok none
  else do
    if (← idx comp 0) ≠ c! '#' then .ok none
    else if (← idx comp 1) ≠ c! '(' then .ok none
    else do
      let last ← idx comp (comp.length - 1)
      if last = c! '#' then
        if (← idx comp (comp.length - 2)) ≠ c! ')' then .ok none
        else do
          let q ← slice comp 2 (comp.length - 2)
          .ok (some q)
      else if last ≠ c! ')' then .ok none
      else do
        let q ← slice comp 2 (comp.length - 1)
        .ok (some q)

/-- path.rs:76-171 `query_parts`: (lh, op, rh). -/
def Path.queryParts (p : Path) : Res (Bytes × Bytes × Bytes) := do
  match ← queryInner p.comp with
  | none => .ok ([], [], [])
  | some q =>
    let query := trim q
    match ← queryOpLoop query (query.length + 1) 0 0 with
    | none => .ok (query, [], [])
    | some (s, e) => do
      let lh := trim (← slice query 0 s)
      let op := trim (← slice query s e)
      let rh := trim (← sliceFrom query e)
      let op ← if op = b!"==" then slice op 0 1 else .ok op
      .ok (lh, op, rh)

end Gjson
