import Verif.Model.Path
/-
Model of the search functions of /repo/src/lib.rs: `parse`, `for_each`, `each`,
`array`, `get_obj`, `get_arr*` and `query_matches`.

`get` and these functions are mutually recursive in Rust. Here the recursive
calls to `get` go through a parameter `rec : Bytes → Bytes → Res Value`; the
knot is tied in `Verif/Model/Get.lean`.

A Rust `FnMut` callback becomes a step function on an explicit state `σ`.
-/
namespace Gjson

/-- The recursive `get`, as a parameter. lib.rs:1021 `get`. -/
abbrev GetFn := Bytes → Bytes → Res Value

/-- lib.rs:1117-1130: the loop of `parse`. -/
def parseLoop (json : Bytes) : Nat → Nat → Res Value
  | 0, _ => outOfFuel
  | n + 1, i =>
    if i < json.length then do
      let c ← idx json i
      if c ≤ c! ' ' then parseLoop json n (i + 1)
      else if c = c! '{' then do
        let s ← sliceFrom json i
        jsonFromSlice s (some i) (INFO_OBJECT ||| INFO_FOG)
      else if c = c! '[' then do
        let s ← sliceFrom json i
        jsonFromSlice s (some i) (INFO_ARRAY ||| INFO_FOG)
      else if c = c! 't' ∨ c = c! 'f' ∨ c = c! 'n' ∨ c = c! '"'
          ∨ (c! '0' ≤ c ∧ c ≤ c! '9') ∨ c = c! '-' then do
        let (v, _, _) ← procLeaf json i
        .ok v
      else .ok Value.default
    else .ok Value.default

/-- lib.rs:1114-1132 `parse`. -/
def parse (json : Bytes) : Res Value := parseLoop json (json.length + 1) 0

/-- lib.rs:392-420: the loop of `for_each`. `f s key value` is the callback
`iter(key, value)` with its captured state. Returns (state, i). -/
def forEachLoop {σ : Type} (json : Bytes) (kind : Kind) (f : σ → Value → Value → Res (σ × Bool)) :
    Nat → Nat → Nat → Value → σ → Res (σ × Nat)
  | 0, _, _, _, _ => outOfFuel
  | n + 1, i, index, tmpKey, s =>
    if i < json.length then do
      let c ← idx json i
      if c ≤ c! ' ' ∨ c = c! ',' ∨ c = c! ':' then forEachLoop json kind f n (i + 1) index tmpKey s
      else if c = c! '}' ∨ c = c! ']' then .ok (s, i + 1)
      else do
        let (res, i, _) ← procLeaf json i
        if res.exists then
          if kind = .object then
            if index % 2 = 0 then forEachLoop json kind f n i (index + 1) res s
            else do
              let (s, more) ← f s tmpKey res
              if more then forEachLoop json kind f n i (index + 1) Value.default s
              else .ok (s, i)
          else do
            let (s, more) ← f s Value.default res
            if more then forEachLoop json kind f n i (index + 1) tmpKey s
            else .ok (s, i)
        else forEachLoop json kind f n i index tmpKey s
    else .ok (s, i)

/-- lib.rs:377-422 `for_each`. -/
def forEach {σ : Type} (json : Bytes) (i : Nat) (lines : Bool) (kind : Kind)
    (f : σ → Value → Value → Res (σ × Bool)) (s : σ) : Res (σ × Nat) :=
  if i = json.length then .ok (s, i)
  else forEachLoop json kind f (json.length + 1) (if !lines then i + 1 else i) 0 Value.default s

/-- lib.rs:352-363 `Value::each`. -/
def Value.each {σ : Type} (v : Value) (f : σ → Value → Value → Res (σ × Bool)) (s : σ) : Res σ :=
  if !v.exists then .ok s
  else if v.kind ≠ .object ∧ v.kind ≠ .array then do
    let (s, _) ← f s Value.default (jsonCloneFromRef v)
    .ok s
  else do
    let (s, _) ← forEach v.json 0 false v.kind f s
    .ok s

/-- lib.rs:365-374 `Value::array`. -/
def Value.array (v : Value) : Res (List Value) :=
  if v.kind = .array then
    v.each (fun arr _ value => .ok (arr ++ [value], true)) []
  else .ok []

/-- lib.rs:192-199 and 1070-1077: combine the positions of an outer and an
inner result. -/
def addIndex (outer : Option Nat) (v : Value) : Value :=
  match outer, v.index with
  | some i1, some i2 => { v with index := some (i1 + i2) }
  | _, _ => { v with index := none }

/-- lib.rs:186-200 `Value::get` (and lib.rs:1065-1077, the same code at the end
of `get`). -/
def getIn (rec : GetFn) (v : Value) (path : Bytes) : Res Value := do
  let json ← if v.slice.length > 0 then rec v.slice path
    else do
      let r ← rec v.owned path
      .ok (jsonIntoOwned r)
  .ok (addIndex v.index json)

/-- lib.rs:692-709 `key_match`. -/
def keyMatch (key : Bytes) (info : UInt32) (path : Path) : Res Bool := do
  let key ← if info &&& INFO_ESC = INFO_ESC then unescape key else stripQuotes key
  if path.pat ∨ path.esc then pmatch path.comp key else .ok (key = path.comp)

/-- lib.rs:749-762 `get_arr_count`. -/
def getArrCount (json : Bytes) (i : Nat) (lines : Bool) (path : Path) : Res Found := do
  let (count, i) ← forEach json i lines .array (fun (count : Nat) _ _ => .ok (count + 1, true)) 0
  let res ← jsonFromOwned (natDec count) none INFO_NUMBER
  .ok (res, i, path)

/-- lib.rs:764-788 `get_arr_child_at_index`. The state is (res, index, next_i);
`next_i = i` copies the starting index. -/
def getArrChildAtIndex (json : Bytes) (i : Nat) (lines : Bool) (path : Path) : Res Found := do
  let compIndex := (parseI64 path.comp).getD (-1)
  let ((res, _, nextI), i') ← forEach json i lines .array
    (fun (st : Value × Int × Nat) _ value =>
      if st.2.1 = compIndex then .ok ((value, st.2.1, i), false)
      else .ok ((st.1, st.2.1 + 1, st.2.2), true))
    (Value.default, 0, 0)
  if res.exists then .ok (res, nextI, path)
  else .ok (Value.default, i', path)

/-- lib.rs:791-806: the right-hand side of a query without its quotes. -/
def queryRpv (rpv : Bytes) : Res Bytes :=
  if rpv.length > 2 then do
    let first ← idx rpv 0
    let last ← idx rpv (rpv.length - 1)
    if first = c! '"' ∧ last = c! '"' then
      if c! '\\' ∈ rpv then unescape rpv
      else slice rpv 1 (rpv.length - 1)
    else .ok rpv
  else .ok rpv

/-- lib.rs:813-818: the boolean value that replaces the operand of `~`. -/
def boolValue (b : Bool) : Value :=
  if b then ⟨b!"true", [], [], INFO_TRUE, none⟩ else ⟨b!"false", [], [], INFO_FALSE, none⟩

/-- lib.rs:834-842: the operators on strings. -/
def strOp (op rpv s : Bytes) : Res Bool :=
  if op = b!"=" then .ok (s = rpv)
  else if op = b!"!=" then .ok (s ≠ rpv)
  else if op = b!"<" then .ok (cmpBytes s rpv = .lt)
  else if op = b!"<=" then .ok (cmpBytes s rpv ≠ .gt)
  else if op = b!">" then .ok (cmpBytes s rpv = .gt)
  else if op = b!">=" then .ok (cmpBytes s rpv ≠ .lt)
  else if op = b!"%" then pmatch rpv s
  else if op = b!"!%" then do .ok (!(← pmatch rpv s))
  else .ok false

/-- lib.rs:846-854: the operators on numbers. -/
def numOp (op : Bytes) (x y : F64) : Bool :=
  if op = b!"=" then x.eq y
  else if op = b!"!=" then !x.eq y
  else if op = b!"<" then x.lt y
  else if op = b!"<=" then x.le y
  else if op = b!">" then y.lt x
  else if op = b!">=" then y.le x
  else false

/-- lib.rs:856-862: the operators on `true`. -/
def trueOp (op rpv : Bytes) : Bool :=
  if op = b!"=" then rpv = b!"true"
  else if op = b!"!=" then rpv ≠ b!"true"
  else if op = b!">" then rpv = b!"false"
  else if op = b!">=" then true
  else false

/-- lib.rs:863-869: the operators on `false`. -/
def falseOp (op rpv : Bytes) : Bool :=
  if op = b!"=" then rpv = b!"false"
  else if op = b!"!=" then rpv ≠ b!"false"
  else if op = b!"<" then rpv = b!"true"
  else if op = b!"<=" then true
  else false

/-- lib.rs:822-871: the rest of `query_matches` once `rpv` and `value` are
prepared. For strings Rust evaluates `value.str()` only inside the arms of the
operators it knows; here it is evaluated first. The only other operator that
`query_parts` can produce is a lone `!`, and `str` returns on every string value
that exists (C05), so the result is `false` either way. -/
def queryCompare (value : Value) (op rpv : Bytes) : Res Bool :=
  if !value.exists then .ok false
  else if op = [] then .ok true
  else
    match value.kind with
    | .string => do strOp op rpv (← value.str)
    | .number => do .ok (numOp op (← value.f64) (rawToF64 rpv))
    | .true => .ok (trueOp op rpv)
    | .false => .ok (falseOp op rpv)
    | _ => .ok false

/-- lib.rs:790-872 `query_matches`. -/
def queryMatches (valin : Value) (op rpv : Bytes) : Res Bool := do
  let rpv ← queryRpv rpv
  match rpv with
  | c :: rest =>
    if c = c! '~' then do
      let b ← valin.bool
      queryCompare (boolValue b) op rest
    else queryCompare valin op rpv
  | [] => queryCompare valin op rpv

/-- lib.rs:883-887 and 918-922: does an element satisfy the query? -/
def elemMatches (rec : GetFn) (lh op rhv : Bytes) (value : Value) : Res Bool := do
  if lh ≠ [] then do
    let v ← getIn rec value lh
    queryMatches v op rhv
  else queryMatches value op rhv

/-- lib.rs:874-899 `get_arr_child_with_query`. -/
def getArrChildWithQuery (rec : GetFn) (json : Bytes) (i : Nat) (lines : Bool) (path : Path) :
    Res Found := do
  let (lh, op, rhv) ← path.queryParts
  let (res, i) ← forEach json i lines .array
    (fun (res : Value) _ value => do
      if ← elemMatches rec lh op rhv value then .ok (value, false) else .ok (res, true))
    Value.default
  if res.exists then .ok (res, i, path)
  else .ok (Value.default, i, path)

/-- lib.rs:929-935 and 963-969: append an existing value to the output. The
state is (res, index). -/
def pushValue (st : Bytes × Nat) (value : Value) : Bytes × Nat :=
  if value.exists then
    ((if st.2 > 0 then st.1 ++ [c! ','] else st.1) ++ value.json, st.2 + 1)
  else st

/-- lib.rs:901-947 `get_arr_children_with_query_subpath`. -/
def getArrChildrenWithQuerySubpath (rec : GetFn) (json : Bytes) (i : Nat) (lines : Bool)
    (path : Path) : Res Found := do
  let (lh, op, rhv) ← path.queryParts
  let (group, rest) ← path.nextGroup
  let subpath := if path.sep = c! '.' then some group else none
  let ((res, _), i) ← forEach json i lines .array
    (fun (st : Bytes × Nat) _ value => do
      if ← elemMatches rec lh op rhv value then do
        let value ← match subpath with
          | some sp => getIn rec value sp
          | none => .ok value
        .ok (pushValue st value, true)
      else .ok (st, true))
    ([c! '['], 0)
  let res ← jsonFromOwned (res ++ [c! ']']) none INFO_ARRAY
  .ok (res, i, rest)

/-- lib.rs:949-980 `get_arr_children_with_subpath`. -/
def getArrChildrenWithSubpath (rec : GetFn) (json : Bytes) (i : Nat) (lines : Bool)
    (path : Path) : Res Found := do
  let (group, rest) ← path.nextGroup
  let ((res, _), i) ← forEach json i lines .array
    (fun (st : Bytes × Nat) _ value => do
      let value ← getIn rec value group
      .ok (pushValue st value, true))
    ([c! '['], 0)
  let res ← jsonFromOwned (res ++ [c! ']']) none INFO_ARRAY
  .ok (res, i, rest)

/-- lib.rs:711-747 `get_arr`. -/
def getArr (rec : GetFn) (json : Bytes) (i : Nat) (lines : Bool) (path : Path) : Res Found :=
  match path.comp with
  | [] => getArrChildAtIndex json i lines path
  | c :: _ =>
    if c = c! '#' then
      if path.comp.length = 1 then
        if path.sep = c! '.' then getArrChildrenWithSubpath rec json i lines path
        else getArrCount json i lines path
      else do
        let last ← idx path.comp (path.comp.length - 1)
        if last = c! '#' then getArrChildrenWithQuerySubpath rec json i lines path
        else getArrChildWithQuery rec json i lines path
    else getArrChildAtIndex json i lines path

/-- lib.rs:672-678: skip white space and `:` between key and value. -/
def skipColon (json : Bytes) : Nat → Nat → Res Nat
  | 0, _ => outOfFuel
  | n + 1, i =>
    if i < json.length then do
      let c ← idx json i
      if c ≤ c! ' ' ∨ c = c! ':' then skipColon json n (i + 1) else .ok i
    else .ok i

/-- lib.rs:660-689: the loop of `get_obj`. -/
def getObjLoop (dive : Nat → Path → Res (Option Found)) (json : Bytes) (path : Path) :
    Nat → Nat → Res Found
  | 0, _ => outOfFuel
  | n + 1, i =>
    if i < json.length then do
      let c ← idx json i
      if c = c! '}' then .ok (Value.default, i + 1, path)
      else if c ≠ c! '"' then getObjLoop dive json path n (i + 1)
      else do
        let (key, info, i) ← scanString json i
        let i ← skipColon json (json.length + 1) i
        if i = json.length then .ok (Value.default, i, path)
        else do
          let isMatch ← keyMatch key info path
          let (res, i, nextPath) ← procValue dive json i path isMatch
          if res.exists then .ok (res, i, nextPath)
          else getObjLoop dive json path n i
    else .ok (Value.default, i, path)

/-- lib.rs:655-690 `get_obj`. The first argument bounds the nesting of the
recursion `get_obj -> proc_value -> get_obj`, which consumes one path component
per level. The local function is lib.rs:588-598 (see `procValue`). -/
def getObj (rec : GetFn) (json : Bytes) : Nat → Nat → Path → Res Found
  | 0, _, _ => outOfFuel
  | d + 1, i, path =>
    let dive : Nat → Path → Res (Option Found) := fun i path => do
      let next ← pathNext path.extra
      if !next.isModifier ∧ !next.isMultipath then do
        let c ← idx json i
        let r ← if c = c! '{' then getObj rec json d i next else getArr rec json i false next
        .ok (some r)
      else .ok none
    if i = json.length then .ok (Value.default, i, path)
    else do
      if (← idx json i) ≠ c! '{' then .ok (Value.default, i, path)
      else getObjLoop dive json path (json.length + 1) (i + 1)

end Gjson
