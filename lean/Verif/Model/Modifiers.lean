import Verif.Model.Search
import Verif.Model.Valid
import Verif.Model.Pretty
/-
Model of /repo/src/modifiers.rs and /repo/src/multipath.rs. The calls to `get`
go through the parameter `rec`, see `Verif/Model/Search.lean`.
-/
namespace Gjson

/-- modifiers.rs:43-45 `mod_this`. -/
def modThis (json : Bytes) : Res Bytes := .ok json

/-- modifiers.rs:47-53 `mod_valid`. -/
def modValid (json : Bytes) : Res Bytes := do
  if ← valid json then .ok json else .ok []

/-- modifiers.rs:62-64: the option `indent`. -/
def optIndent (o : PrettyOptions) (v : Value) : Res PrettyOptions :=
  if v.exists then do .ok { o with indent := ← v.str } else .ok o

/-- modifiers.rs:65-67: the option `prefix`. -/
def optPrefix (o : PrettyOptions) (v : Value) : Res PrettyOptions :=
  if v.exists then do .ok { o with pfx := ← v.str } else .ok o

/-- modifiers.rs:68-70: the option `sortKeys`. -/
def optSortKeys (o : PrettyOptions) (v : Value) : Res PrettyOptions :=
  if v.exists then do .ok { o with sortKeys := ← v.bool } else .ok o

/-- modifiers.rs:71-73: the option `width`. -/
def optWidth (o : PrettyOptions) (v : Value) : Res PrettyOptions :=
  if v.exists then do .ok (o.setWidth (← v.u32)) else .ok o

/-- modifiers.rs:55-78 `mod_pretty`. -/
def modPretty (rec : GetFn) (json arg : Bytes) : Res Bytes :=
  if arg.length > 0 then do
    let indent ← rec arg b!"indent"
    let pfx ← rec arg b!"prefix"
    let sortKeys ← rec arg b!"sortKeys"
    let width ← rec arg b!"width"
    let o ← optIndent PrettyOptions.default indent
    let o ← optPrefix o pfx
    let o ← optSortKeys o sortKeys
    let o ← optWidth o width
    prettyOptions json o
  else pretty json

/-- modifiers.rs:80-82 `mod_ugly`. -/
def modUgly (json : Bytes) : Res Bytes := ugly json

/-- modifiers.rs:94, 95, 105: `index.unwrap()`. -/
def unwrapIndex (v : Value) : Res Nat :=
  match v.index with
  | some i => .ok i
  | none => rpanic

/-- modifiers.rs:116-121: the slices in reverse order, separated by commas. -/
def joinComma : List Bytes → Bytes
  | [] => []
  | [s] => s
  | s :: t :: r => s ++ [c! ','] ++ joinComma (t :: r)

/-- modifiers.rs:84-125 `mod_reverse`. -/
def modReverse (json : Bytes) : Res Bytes := do
  let res ← parse json
  let json := res.slice
  match res.kind with
  | .object => do
    let slices ← res.each (fun (slices : List Bytes) key value => do
      let kindex ← unwrapIndex key
      let vindex ← unwrapIndex value
      let s ← slice json kindex (vindex + value.slice.length)
      .ok (slices ++ [s], true)) []
    .ok ([c! '{'] ++ joinComma slices.reverse ++ [c! '}'])
  | .array => do
    let slices ← res.each (fun (slices : List Bytes) _ value => do
      let vindex ← unwrapIndex value
      let s ← slice json vindex (vindex + value.slice.length)
      .ok (slices ++ [s], true)) []
    .ok ([c! '['] ++ joinComma slices.reverse ++ [c! ']'])
  | _ => .ok json

/-- modifiers.rs:223-225: drop leading bytes `<= ' '`. -/
def dropBlank : Bytes → Bytes
  | [] => []
  | c :: r => if c ≤ c! ' ' then dropBlank r else c :: r

/-- modifiers.rs:222-233 `unwrap`. -/
def unwrap (json : Bytes) : Bytes :=
  let json := dropBlank json
  let json := (dropBlank json.reverse).reverse
  match json with
  | c :: _ :: _ => if c = c! '[' ∨ c = c! '{' then sub json 1 (json.length - 1) else json
  | _ => json

/-- `HashMap::insert` (modifiers.rs:163) on an association list. -/
def mapInsert (k v : Bytes) : List (Bytes × Bytes) → List (Bytes × Bytes)
  | [] => [(k, v)]
  | (k', v') :: r => if k' = k then (k, v) :: r else (k', v') :: mapInsert k v r

/-- `HashMap::get` (modifiers.rs:159, 175) on an association list. -/
def mapGet (k : Bytes) : List (Bytes × Bytes) → Option Bytes
  | [] => none
  | (k', v') :: r => if k' = k then some v' else mapGet k r

/-- modifiers.rs:169-176: write the members in first-seen key order. -/
def joinMembers (kvals : List (Bytes × Bytes)) : List (Bytes × Bytes) → Res (List Bytes)
  | [] => .ok []
  | (raw, k) :: r => do
    match mapGet k kvals with
    | none => rpanic
    | some v => do
      let rest ← joinMembers kvals r
      .ok ((raw ++ [c! ':'] ++ v) :: rest)

/-- modifiers.rs:127-181 `mod_join`. The `HashMap` is only used through
`contains_key`, `insert` and `get`, so its order is not observable; it is an
association list here. -/
def modJoin (rec : GetFn) (json arg : Bytes) : Res Bytes := do
  let res ← parse json
  if res.kind ≠ .array then .ok json
  else do
    let p ← rec arg b!"preserve"
    let preserve ← p.bool
    if preserve then do
      let (out, _) ← res.each (fun (st : Bytes × Nat) _ value =>
        if value.kind ≠ .object then .ok (st, true)
        else
          let out := if st.2 > 0 then st.1 ++ [c! ','] else st.1
          .ok ((out ++ unwrap value.slice, st.2 + 1), true)) ([c! '{'], 0)
      .ok (out ++ [c! '}'])
    else do
      let (keys, kvals) ← res.each
        (fun (st : List (Bytes × Bytes) × List (Bytes × Bytes)) _ value =>
          if value.kind ≠ .object then .ok (st, true)
          else do
            let st ← value.each
              (fun (st : List (Bytes × Bytes) × List (Bytes × Bytes)) key value => do
                let k ← key.str
                let keys := if (mapGet k st.2).isNone then st.1 ++ [(key.json, k)] else st.1
                .ok ((keys, mapInsert k value.json st.2), true)) st
            .ok (st, true)) ([], [])
      let members ← joinMembers kvals keys
      .ok ([c! '{'] ++ joinComma members ++ [c! '}'])

/-- modifiers.rs:188-220 `mod_flatten`; the first argument bounds the recursion
of deep flattening (each level works on a strictly shorter text). -/
def modFlattenN (rec : GetFn) : Nat → Bytes → Bytes → Res Bytes
  | 0, _, _ => outOfFuel
  | n + 1, json, arg => do
    let res ← parse json
    if res.kind ≠ .array then .ok json
    else do
      let d ← rec arg b!"deep"
      let deep ← d.bool
      let (out, _) ← res.each (fun (st : Bytes × Nat) _ value => do
        let raw ← if value.kind = .array then
            if deep then do
              let inner ← modFlattenN rec n value.json arg
              .ok (unwrap inner)
            else .ok (unwrap value.json)
          else .ok value.slice
        if raw.length > 0 then
          .ok (((if st.2 > 0 then st.1 ++ [c! ','] else st.1) ++ raw, st.2 + 1), true)
        else .ok (st, true)) ([c! '['], 0)
      .ok (out ++ [c! ']'])

/-- modifiers.rs:188-220 `mod_flatten`. -/
def modFlatten (rec : GetFn) (json arg : Bytes) : Res Bytes :=
  modFlattenN rec (json.length + 1) json arg

/-- modifiers.rs:30-39: the dispatch on the modifier name. -/
def modApply (rec : GetFn) (name json arg : Bytes) : Res Bytes :=
  if name = b!"this" then modThis json
  else if name = b!"reverse" then modReverse json
  else if name = b!"ugly" then modUgly json
  else if name = b!"pretty" then modPretty rec json arg
  else if name = b!"valid" then modValid json
  else if name = b!"flatten" then modFlatten rec json arg
  else if name = b!"join" then modJoin rec json arg
  else .ok []

/-- modifiers.rs:15-41 `exec`. -/
def modExec (rec : GetFn) (json : Bytes) (path : Path) : Res (Value × Path) := do
  let (name, arg) ← if path.marg = 0 then do
      let name ← sliceFrom path.comp 1
      .ok (name, [])
    else do
      let name ← slice path.comp 1 path.marg
      let arg ← sliceFrom path.comp (path.marg + 1)
      .ok (name, arg)
  let out ← modApply rec name json arg
  let v ← parse out
  .ok (jsonIntoOwned v, path)

/-- multipath.rs:14-24: the backward loop of `name_of_last`; `n` is `i + 1`. -/
def nameOfLastLoop (path : Bytes) : Nat → Res Bytes
  | 0 => .ok path
  | i + 1 => do
    let c ← idx path i
    if c = c! '|' ∨ c = c! '.' then
      if i > 0 then do
        if (← idx path (i - 1)) = c! '\\' then nameOfLastLoop path i
        else sliceFrom path (i + 1)
      else sliceFrom path (i + 1)
    else nameOfLastLoop path i

/-- multipath.rs:13-26 `name_of_last`. -/
def nameOfLast (path : Bytes) : Res Bytes := nameOfLastLoop path path.length

/-- multipath.rs:30-43 `is_simple_name`. -/
def isSimpleName : Bytes → Bool
  | [] => true
  | c :: r =>
    if c < c! ' ' then false
    else if c = c! '[' ∨ c = c! ']' ∨ c = c! '{' ∨ c = c! '}' ∨ c = c! '(' ∨ c = c! ')'
        ∨ c = c! '#' ∨ c = c! '|' then false
    else isSimpleName r

/-- multipath.rs:45-52 `key_for_path`. -/
def keyForPath (path : Bytes) : Res Bytes := do
  let key ← nameOfLast path
  .ok (if isSimpleName key then key else b!"_")

/-- multipath.rs:61-65 and 81-85: one component, `path[s..i]` with an optional
colon at `c`: (key, subpath). -/
def compAt (path : Bytes) (s i : Nat) (c : Option Nat) : Res (Bytes × Bytes) :=
  match c with
  | some c => do
    let k ← slice path s c
    let p ← slice path (c + 1) i
    .ok (k, p)
  | none => do
    let p ← slice path s i
    let k ← keyForPath p
    .ok (k, p)

/-- multipath.rs:59-95: the loop of `each_comp`, with the callback as a step
function on a state. -/
def eachCompLoop {σ : Type} (path : Bytes) (f : σ → Bytes → Bytes → Res σ) :
    Nat → Nat → Option Nat → Nat → σ → Res σ
  | 0, _, _, _, _ => outOfFuel
  | n + 1, i, c, s, st =>
    if i = path.length then do
      let (k, p) ← compAt path s i c
      f st k p
    else do
      let ch ← idx path i
      if ch = c! '\\' then
        let i := i + 1
        if i = path.length then .ok st
        else eachCompLoop path f n (i + 1) c s st
      else if ch = c! '(' ∨ ch = c! '[' ∨ ch = c! '{' then do
        let (_, i) ← scanSquash path i
        eachCompLoop path f n i c s st
      else if ch = c! ',' then do
        let (k, p) ← compAt path s i c
        let st ← f st k p
        eachCompLoop path f n (i + 1) none (i + 1) st
      else if ch = c! ':' then eachCompLoop path f n (i + 1) (some i) s st
      else eachCompLoop path f n (i + 1) c s st

/-- multipath.rs:54-96 `each_comp`. -/
def eachComp {σ : Type} (path : Bytes) (f : σ → Bytes → Bytes → Res σ) (st : σ) : Res σ :=
  if path.length = 0 then rpanic
  else do
    let path ← slice path 1 (path.length - 1)
    eachCompLoop path f (path.length + 1) 0 none 0 st

/-- multipath.rs:108 and 130: does the component lack its closing bracket? -/
def unclosed (comp : Bytes) (cls : UInt8) : Res Bool :=
  if comp.length = 0 then rpanic
  else do .ok ((← idx comp (comp.length - 1)) ≠ cls)

/-- multipath.rs:107-127 `exec_arr`. -/
def execArr (rec : GetFn) (json : Bytes) (path : Path) : Res (Value × Path) := do
  if ← unclosed path.comp c! ']' then .ok (Value.default, Path.empty)
  else do
    let (out, _) ← eachComp path.comp (fun (st : Bytes × Nat) _ p => do
      let res ← rec json p
      .ok (pushValue st res)) ([c! '['], 0)
    let v ← jsonFromOwned (out ++ [c! ']']) none INFO_ARRAY
    .ok (v, path)

/-- multipath.rs:138-146: append a member when the value exists. -/
def pushMember (st : Bytes × Nat) (key : Bytes) (value : Value) : Bytes × Nat :=
  if value.exists then
    ((if st.2 > 0 then st.1 ++ [c! ','] else st.1) ++ jsonString key ++ [c! ':'] ++ value.json,
      st.2 + 1)
  else st

/-- multipath.rs:129-151 `exec_obj`. -/
def execObj (rec : GetFn) (json : Bytes) (path : Path) : Res (Value × Path) := do
  if ← unclosed path.comp c! '}' then .ok (Value.default, Path.empty)
  else do
    let (out, _) ← eachComp path.comp (fun (st : Bytes × Nat) key p => do
      let res ← rec json p
      .ok (pushMember st key res)) ([c! '{'], 0)
    let v ← jsonFromOwned (out ++ [c! '}']) none INFO_OBJECT
    .ok (v, path)

/-- multipath.rs:98-105 `exec`. -/
def multiExec (rec : GetFn) (json : Bytes) (path : Path) : Res (Value × Path) := do
  if (← idx path.comp 0) = c! '[' then execArr rec json path else execObj rec json path

end Gjson
