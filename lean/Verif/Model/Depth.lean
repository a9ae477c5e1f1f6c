import Verif.Model.Valid
import Verif.Model.Pretty
import Verif.Model.Get
/-
`valid`, `pretty`, `@flatten` and `get` with a limit on how deep their calls nest. The Rust code
has no such limit but the stack; the model of the functions themselves takes a limit that
is never reached (`Verif.Model.Valid`, `Verif.Model.Pretty`, `Verif.Model.Modifiers`).
-/
namespace Gjson

/-- valid.rs:68-83 `valid`, where at most `n` calls of `valid_any` (valid.rs:85-108) may be
active at once; one more call ends the run with `outOfFuel`. -/
def validWithin (n : Nat) (json : Bytes) : Res Bool := do
  let (v, i) ← validAny json n 0
  if !v then .ok false
  else validTrail json (json.length + 1) i

/-- pretty.rs:81-109 `pretty_options`, where at most `n` calls of `extend_pretty_any`
(pretty.rs:111-190) may be active at once; one more call ends the run with `outOfFuel`. -/
def prettyWithin (n : Nat) (json : Bytes) (o : PrettyOptions) : Res Bytes := do
  let buf := if o.pfx.length ≠ 0 then o.pfx else []
  let a : PArgs := ⟨true, o.width, o.pfx, o.indent, o.sortKeys⟩
  let (buf, _, _, _) ← prettyAny json n a 0 (-1) 0 buf 0 0
  .ok (if buf.length > 0 then buf ++ [c! '\n'] else buf)

/-- modifiers.rs:188-220 `mod_flatten`, where at most `n` calls of it may be active at
once; one more call ends the run with `outOfFuel`. -/
def flattenWithin (n : Nat) (json arg : Bytes) : Res Bytes := modFlattenN get n json arg

/-- lib.rs:655-690: the body of `get_obj`, with the calls of `get` and `get_obj` as
parameters. -/
def objStep (rec : GetFn) (obj : Nat → Path → Res Found) (json : Bytes) (i : Nat) (path : Path) : Res Found :=
  let dive : Nat → Path → Res (Option Found) := fun i path => do
    let next ← pathNext path.extra
    if !next.isModifier ∧ !next.isMultipath then do
      let c ← idx json i
      let r ← if c = c! '{' then obj i next else getArr rec json i false next
      .ok (some r)
    else .ok none
  if i = json.length then .ok (Value.default, i, path)
  else do
    if (← idx json i) ≠ c! '{' then .ok (Value.default, i, path)
    else getObjLoop dive json path (json.length + 1) (i + 1)

/-- lib.rs:1040-1058 as `getStart`, with the call of `get_obj` as a parameter. -/
def startStep (rec : GetFn) (obj : Nat → Path → Res Found) (json : Bytes) (path : Path) : Nat → Nat → Res (Value × Path)
  | 0, _ => outOfFuel
  | n + 1, i =>
    if i = json.length then .ok (Value.default, path)
    else do
      let c ← idx json i
      if c ≤ c! ' ' then startStep rec obj json path n (i + 1)
      else if c = c! '{' then do
        let (v, _, p) ← obj i path
        .ok (v, p)
      else if c = c! '[' then do
        let (v, _, p) ← getArr rec json i false path
        .ok (v, p)
      else .ok (Value.default, path)

/-- lib.rs:1029-1060 as `getFirst`, with the call of `get_obj` as a parameter. -/
def firstStep (rec : GetFn) (obj : Nat → Path → Res Found) (json path : Bytes) : Res (Value × Path) := do
  let (path, lines) := linesPrefix path
  let p ← Path.new path
  if lines then do
    let (v, _, p) ← getArr rec json 0 true p
    .ok (v, p)
  else if p.isModifier then modExec rec json p
  else if p.isMultipath then multiExec rec json p
  else startStep rec obj json p (json.length + 1) 0

/-- lib.rs:1021-1078: the body of `get`, with the calls of `get` and `get_obj` as
parameters. -/
def getStep (rec : GetFn) (obj : Nat → Path → Res Found) (json path : Bytes) : Res Value := do
  let (res, p) ← firstStep rec obj json path
  if !p.more then .ok res
  else getIn rec res p.extra

mutual
/-- lib.rs:1021-1078 `get`, where at most `n` calls of `get` and `get_obj` may be active at
once; one more call ends the run with `outOfFuel`. The functions called between them,
among them `proc_value` and the closures of `for_each`, are not counted. -/
def getWithin : Nat → GetFn
  | 0 => fun _ _ => outOfFuel
  | n + 1 => fun json path => getStep (getWithin n) (objWithin n json) json path
/-- lib.rs:655-690 `get_obj` with the same limit. -/
def objWithin : Nat → Bytes → Nat → Path → Res Found
  | 0 => fun _ _ _ => outOfFuel
  | n + 1 => fun json i path => objStep (getWithin n) (objWithin n json) json i path
end

end Gjson
