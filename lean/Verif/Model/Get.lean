import Verif.Model.Modifiers
/-
Model of the public entry points `get` (lib.rs:1021-1078), `get_bytes`
(lib.rs:1090-1092) and `Value::get` (lib.rs:186-200).
-/
namespace Gjson

/-- lib.rs:1040-1058: skip blanks and dispatch on the first byte. -/
def getStart (rec : GetFn) (json : Bytes) (path : Path) : Nat → Nat → Res (Value × Path)
  | 0, _ => outOfFuel
  | n + 1, i =>
    if i = json.length then .ok (Value.default, path)
    else do
      let c ← idx json i
      if c ≤ c! ' ' then getStart rec json path n (i + 1)
      else if c = c! '{' then do
        let (v, _, p) ← getObj rec json (path.extra.length + 2) i path
        .ok (v, p)
      else if c = c! '[' then do
        let (v, _, p) ← getArr rec json i false path
        .ok (v, p)
      else .ok (Value.default, path)

/-- lib.rs:1024-1028: the path without a leading `..`, and whether it was there. -/
def linesPrefix (path : Bytes) : Bytes × Bool :=
  match path with
  | a :: b :: rest => if a = c! '.' ∧ b = c! '.' then (rest, true) else (path, false)
  | _ => (path, false)

/-- lib.rs:1029-1060: the first part of `get`: (result, remaining path). -/
def getFirst (rec : GetFn) (json path : Bytes) : Res (Value × Path) := do
  let (path, lines) := linesPrefix path
  let p ← Path.new path
  if lines then do
    let (v, _, p) ← getArr rec json 0 true p
    .ok (v, p)
  else if p.isModifier then modExec rec json p
  else if p.isMultipath then multiExec rec json p
  else getStart rec json p (json.length + 1) 0

/-- lib.rs:1021-1078: the body of `get`, with the recursive calls as a parameter. -/
def getBody (rec : GetFn) (json path : Bytes) : Res Value := do
  let (res, p) ← getFirst rec json path
  if !p.more then .ok res
  else getIn rec res p.extra

/-- `get` with a bound on the depth of its recursion. lib.rs:1021-1078 `get`. -/
def getN : Nat → GetFn
  | 0 => fun _ _ => outOfFuel
  | n + 1 => getBody (getN n)

/-- lib.rs:1021-1078 `get`. Every recursive call is on a shorter path (or on one
of the fixed option names of the modifiers), so `path.length + 1` levels always
suffice; this is a theorem (`get` never returns `Fault.fuel`), not an
assumption. -/
def get (json path : Bytes) : Res Value := getN (path.length + 2) json path

/-- lib.rs:1090-1092 `get_bytes`: `get` on the same bytes. The caller vouches for them
being UTF-8; the model works on bytes throughout. -/
def getBytes (json path : Bytes) : Res Value := get json path

/-- lib.rs:186-200 `Value::get`. -/
def Value.get (v : Value) (path : Bytes) : Res Value := getIn Gjson.get v path

end Gjson
