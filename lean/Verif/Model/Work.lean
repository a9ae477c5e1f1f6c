import Verif.Model.Get
/-
`get_obj` together with the number of calls of `get_obj` and `get_arr` that it makes. The
results are those of `Verif.Model.Search` (`objCount_result` in `Verif.Lemmas.Work`).
-/
namespace Gjson

/-- lib.rs:571-653 `proc_value` with the number of calls it makes. `get_obj` or `get_arr` is
called from here (lib.rs:584-594) for a container at a match if a dot follows in the path;
`dive` gives the result and the number. -/
def procCount (dive : Nat → Path → Res (Option Found × Nat)) (json : Bytes) (i : Nat) (path : Path) (isMatch : Bool) :
    Res (Found × Nat) := do
  let r ← procValue (fun i path => do .ok (← dive i path).1) json i path isMatch
  let c ← idx json i
  if isMatch ∧ (c = c! '{' ∨ c = c! '[') ∧ path.sep = c! '.' then do
    let x ← dive i path
    .ok (r, x.2)
  else .ok (r, 0)

/-- lib.rs:660-689: the loop of `get_obj` with the number of calls made from it. -/
def objCountLoop (dive : Nat → Path → Res (Option Found × Nat)) (json : Bytes) (path : Path) :
    Nat → Nat → Res (Found × Nat)
  | 0, _ => outOfFuel
  | n + 1, i =>
    if i < json.length then do
      let c ← idx json i
      if c = c! '}' then .ok ((Value.default, i + 1, path), 0)
      else if c ≠ c! '"' then objCountLoop dive json path n (i + 1)
      else do
        let (key, info, i) ← scanString json i
        let i ← skipColon json (json.length + 1) i
        if i = json.length then .ok ((Value.default, i, path), 0)
        else do
          let isMatch ← keyMatch key info path
          let ((res, i, nextPath), k) ← procCount dive json i path isMatch
          if res.exists then .ok ((res, i, nextPath), k)
          else do
            let (r, k') ← objCountLoop dive json path n i
            .ok (r, k + k')
    else .ok ((Value.default, i, path), 0)

/-- lib.rs:655-690 `get_obj` with the number of calls of `get_obj` and `get_arr`, itself
included. The local function is lib.rs:584-594. -/
def objCount (rec : GetFn) (json : Bytes) : Nat → Nat → Path → Res (Found × Nat)
  | 0, _, _ => outOfFuel
  | d + 1, i, path =>
    let dive : Nat → Path → Res (Option Found × Nat) := fun i path => do
      let next ← pathNext path.extra
      if !next.isModifier ∧ !next.isMultipath then do
        let c ← idx json i
        if c = c! '{' then do
          let (r, k) ← objCount rec json d i next
          .ok (some r, k)
        else do
          let r ← getArr rec json i false next
          .ok (some r, 1)
      else .ok (none, 0)
    if i = json.length then .ok ((Value.default, i, path), 1)
    else do
      if (← idx json i) ≠ c! '{' then .ok ((Value.default, i, path), 1)
      else do
        let (r, k) ← objCountLoop dive json path (json.length + 1) (i + 1)
        .ok (r, k + 1)

/-- lib.rs:1040-1058: skip blanks and dispatch on the first byte; the number of calls. -/
def startCount (json : Bytes) (path : Path) : Nat → Nat → Res Nat
  | 0, _ => outOfFuel
  | n + 1, i =>
    if i = json.length then .ok 0
    else do
      let c ← idx json i
      if c ≤ c! ' ' then startCount json path n (i + 1)
      else if c = c! '{' then do
        let (_, k) ← objCount get json (path.extra.length + 2) i path
        .ok k
      else if c = c! '[' then .ok 1
      else .ok 0

/-- lib.rs:1029-1060: how often `get` calls `get_obj` and `get_arr`, directly or from
within them. The calls made when `get` or `Value::get` is called again, for the rest of the
path or for elements of an array, are not included. -/
def searchCalls (json path : Bytes) : Res Nat := do
  let (path, lines) := linesPrefix path
  let p ← Path.new path
  if lines then .ok 1
  else if p.isModifier ∨ p.isMultipath then .ok 0
  else startCount json p (json.length + 1) 0

end Gjson
