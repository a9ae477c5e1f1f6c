import Verif.Basic
/-
Model of /repo/src/valid.rs.
-/
namespace Gjson

/-- valid.rs:8 `SPACE`. -/
def SPACE : UInt8 := (1 : UInt8) <<< 1
/-- valid.rs:9 `STRING`. -/
def VSTRING : UInt8 := (1 : UInt8) <<< 2

/-- valid.rs:11-54 `TABLE[c]`. The 32 assignments for 0x00..=0x1F are one
range test. -/
def vtable (c : UInt8) : UInt8 :=
  (if c = c! '\t' ∨ c = c! '\n' ∨ c = c! '\r' ∨ c = c! ' ' then SPACE else 0) |||
  (if c ≤ 0x1F ∨ c = c! '"' ∨ c = c! '\\' then VSTRING else 0)

/-- valid.rs:56-58 `isspace`. -/
def isspace (c : UInt8) : Bool := vtable c &&& SPACE = SPACE

/-- valid.rs:120-125: the byte-wise loop of `strip_ws`. -/
def stripWsLoop (json : Bytes) : Nat → Nat → Res Nat
  | 0, _ => outOfFuel
  | n + 1, i =>
    if i < json.length then do
      let c ← idx json i
      if vtable c &&& SPACE ≠ SPACE then .ok i
      else stripWsLoop json n (i + 1)
    else .ok i

/-- valid.rs:113-118: `for ch in &json[i..i+16]` over the remaining chunk.
`some i` is the `return i` inside the loop, `none` a completed loop. -/
def stripWsFor : Bytes → Nat → Option Nat × Nat
  | [], i => (none, i)
  | ch :: r, i =>
    if vtable ch &&& SPACE ≠ SPACE then (some i, i)
    else stripWsFor r (i + 1)

/-- valid.rs:110-128 `strip_ws`. (The outer `loop` runs once: it ends in
`return i`.) -/
def stripWs (json : Bytes) (i : Nat) : Res Nat :=
  if i + 16 < json.length then do
    let chunk ← slice json i (i + 16)
    match stripWsFor chunk i with
    | (some r, _) => .ok r
    | (none, i) => stripWsLoop json (json.length + 1) i
  else stripWsLoop json (json.length + 1) i

/-- valid.rs:204-206 `ishexdigit`. -/
def ishexdigit (c : UInt8) : Bool :=
  (c ≥ c! '0' && c ≤ c! '9') || (c ≥ c! 'a' && c ≤ c! 'f') || (c ≥ c! 'A' && c ≤ c! 'F')

/-- valid.rs:214-220: `for c in &json[i..i+32]`; the flag says a table byte was
found (`break 'tok`) at the returned index. -/
def validStringFor : Bytes → Nat → Bool × Nat
  | [], i => (false, i)
  | ch :: r, i =>
    if vtable ch &&& VSTRING = VSTRING then (true, i)
    else validStringFor r (i + 1)

/-- valid.rs:222-228: the byte-wise search loop. -/
def validStringWhile (json : Bytes) : Nat → Nat → Res (Bool × Nat)
  | 0, _ => outOfFuel
  | n + 1, i =>
    if i < json.length then do
      let ch ← idx json i
      if vtable ch &&& VSTRING = VSTRING then .ok (true, i)
      else validStringWhile json n (i + 1)
    else .ok (false, i)

/-- valid.rs:212-230: the labelled block `'tok`: find the next special byte. -/
def validStringTok (json : Bytes) (i : Nat) : Res (Bool × Nat) :=
  if i + 32 < json.length then do
    let chunk ← slice json i (i + 32)
    match validStringFor chunk i with
    | (true, i) => .ok (true, i)
    | (false, i) => validStringWhile json (json.length + 1) i
  else validStringWhile json (json.length + 1) i

/-- valid.rs:245-253: `for _ in 0..4` over the hexadecimal digits; `i` is the
index of the byte before the first digit. -/
def validHex (json : Bytes) : Nat → Nat → Res (Bool × Nat)
  | 0, i => .ok (true, i)
  | n + 1, i =>
    let i := i + 1
    if i = json.length then .ok (false, i)
    else do
      let c ← idx json i
      if !ishexdigit c then .ok (false, i)
      else validHex json n i

/-- valid.rs:210-259: the outer loop of `valid_string`. -/
def validStringLoop (json : Bytes) : Nat → Nat → Res (Bool × Nat)
  | 0, _ => outOfFuel
  | n + 1, i => do
    match ← validStringTok json i with
    | (false, i) => .ok (false, i)
    | (true, i) => do
      let c ← idx json i
      if c < c! ' ' then .ok (false, i)
      else if c = c! '"' then .ok (true, i + 1)
      else if c = c! '\\' then
        let i := i + 1
        if i = json.length then .ok (false, i)
        else do
          let e ← idx json i
          if e = c! '"' ∨ e = c! '\\' ∨ e = c! '/' ∨ e = c! 'b' ∨ e = c! 'f' ∨ e = c! 'n' ∨
              e = c! 'r' ∨ e = c! 't' then
            validStringLoop json n (i + 1)
          else if e = c! 'u' then do
            match ← validHex json 4 i with
            | (false, i) => .ok (false, i)
            | (true, i) => validStringLoop json n (i + 1)
          else .ok (false, i)
      else validStringLoop json n (i + 1)

/-- valid.rs:208-260 `valid_string`. -/
def validString (json : Bytes) (i : Nat) : Res (Bool × Nat) :=
  validStringLoop json (json.length + 1) (i + 1)

/-- valid.rs:280-286, 301-307, 328-334: skip decimal digits. -/
def skipDigits (json : Bytes) : Nat → Nat → Res Nat
  | 0, _ => outOfFuel
  | n + 1, i =>
    if i < json.length then do
      let c ← idx json i
      if c ≥ c! '0' ∧ c ≤ c! '9' then skipDigits json n (i + 1)
      else .ok i
    else .ok i

/-- valid.rs:309-336: the exponent part of `valid_number`. -/
def validExp (json : Bytes) (i : Nat) : Res (Bool × Nat) :=
  if i = json.length then .ok (true, i)
  else do
    let c ← idx json i
    if c = c! 'e' ∨ c = c! 'E' then
      let i := i + 1
      if i = json.length then .ok (false, i)
      else do
        let c ← idx json i
        let i := if c = c! '+' ∨ c = c! '-' then i + 1 else i
        if i = json.length then .ok (false, i)
        else do
          let c ← idx json i
          if c < c! '0' ∨ c > c! '9' then .ok (false, i)
          else do
            let i ← skipDigits json (json.length + 1) (i + 1)
            .ok (true, i)
    else .ok (true, i)

/-- valid.rs:288-308: the fraction part of `valid_number`, continuing with the
exponent. -/
def validFrac (json : Bytes) (i : Nat) : Res (Bool × Nat) :=
  if i = json.length then .ok (true, i)
  else do
    let c ← idx json i
    if c = c! '.' then
      let i := i + 1
      if i = json.length then .ok (false, i)
      else do
        let c ← idx json i
        if c < c! '0' ∨ c > c! '9' then .ok (false, i)
        else do
          let i ← skipDigits json (json.length + 1) (i + 1)
          validExp json i
    else validExp json i

/-- valid.rs:273-287: the integer part of `valid_number`, continuing with the
fraction. -/
def validInt (json : Bytes) (i : Nat) : Res (Bool × Nat) :=
  if i = json.length then .ok (false, i)
  else do
    let c ← idx json i
    if c = c! '0' then validFrac json (i + 1)
    else do
      let i ← skipDigits json (json.length + 1) i
      validFrac json i

/-- valid.rs:262-337 `valid_number`. -/
def validNumber (json : Bytes) (i : Nat) : Res (Bool × Nat) := do
  let c ← idx json i
  if c = c! '-' then
    let i := i + 1
    if i = json.length then .ok (false, i)
    else do
      let c ← idx json i
      if c < c! '0' ∨ c > c! '9' then .ok (false, i)
      else validInt json i
  else validInt json i

/-- valid.rs:339-360 `valid_true`, `valid_false`, `valid_null`: the same code
with the literal and its length (4 or 5) as parameter. -/
def validLit (lit : Bytes) (json : Bytes) (i : Nat) : Res (Bool × Nat) :=
  if i + lit.length ≤ json.length then do
    let s ← slice json i (i + lit.length)
    if s = lit then .ok (true, i + lit.length) else .ok (false, i)
  else .ok (false, i)

/-- valid.rs:138-173: the member loop of `valid_object`; `any` is `valid_any`. -/
def validObjectLoop (any : Nat → Res (Bool × Nat)) (json : Bytes) : Nat → Nat → Res (Bool × Nat)
  | 0, _ => outOfFuel
  | n + 1, i => do
    let c ← idx json i
    if c ≠ c! '"' then .ok (false, i)
    else do
      let (valid, next_i) ← validString json i
      if !valid then .ok (false, i)
      else do
        let i ← stripWs json next_i
        if i = json.length then .ok (false, i)
        else do
          let c ← idx json i
          if c ≠ c! ':' then .ok (false, i)
          else do
            let (valid, next_i) ← any (i + 1)
            if !valid then .ok (false, i)
            else do
              let i ← stripWs json next_i
              if i = json.length then .ok (false, i)
              else do
                let c ← idx json i
                if c = c! '}' then .ok (true, i + 1)
                else if c ≠ c! ',' then .ok (false, i)
                else do
                  let i ← stripWs json (i + 1)
                  if i = json.length then .ok (false, i)
                  else validObjectLoop any json n i

/-- valid.rs:130-174 `valid_object`; `any` is `valid_any`. -/
def validObject (any : Nat → Res (Bool × Nat)) (json : Bytes) (i : Nat) : Res (Bool × Nat) := do
  let i ← stripWs json (i + 1)
  if i = json.length then .ok (false, i)
  else do
    let c ← idx json i
    if c = c! '}' then .ok (true, i + 1)
    else validObjectLoop any json (json.length + 1) i

/-- valid.rs:184-201: the element loop of `valid_array`; `any` is `valid_any`. -/
def validArrayLoop (any : Nat → Res (Bool × Nat)) (json : Bytes) : Nat → Nat → Res (Bool × Nat)
  | 0, _ => outOfFuel
  | n + 1, i => do
    let (valid, next_i) ← any i
    if !valid then .ok (false, i)
    else do
      let i ← stripWs json next_i
      if i = json.length then .ok (false, i)
      else do
        let c ← idx json i
        if c = c! ']' then .ok (true, i + 1)
        else if c ≠ c! ',' then .ok (false, i)
        else validArrayLoop any json n (i + 1)

/-- valid.rs:176-202 `valid_array`; `any` is `valid_any`. -/
def validArray (any : Nat → Res (Bool × Nat)) (json : Bytes) (i : Nat) : Res (Bool × Nat) := do
  let i ← stripWs json (i + 1)
  if i = json.length then .ok (false, i)
  else do
    let c ← idx json i
    if c = c! ']' then .ok (true, i + 1)
    else validArrayLoop any json (json.length + 1) i

/-- valid.rs:86-106: the loop of `valid_any`: skip whitespace, then dispatch.
`rec` is the recursive `valid_any` used inside arrays and objects. -/
def validAnyLoop (rec : Nat → Res (Bool × Nat)) (json : Bytes) : Nat → Nat → Res (Bool × Nat)
  | 0, _ => outOfFuel
  | n + 1, i =>
    if i < json.length then do
      let c ← idx json i
      if isspace c then validAnyLoop rec json n (i + 1)
      else if c = c! '{' then validObject rec json i
      else if c = c! '[' then validArray rec json i
      else if c = c! '"' then validString json i
      else if c = c! 't' then validLit b!"true" json i
      else if c = c! 'f' then validLit b!"false" json i
      else if c = c! 'n' then validLit b!"null" json i
      else if c = c! '-' ∨ (c ≥ c! '0' ∧ c ≤ c! '9') then validNumber json i
      else .ok (false, i)
    else .ok (false, i)

/-- valid.rs:85-108 `valid_any`. The first argument bounds the nesting depth of
the recursion (the Rust recursion has no bound but the machine stack, which is
not modelled). -/
def validAny (json : Bytes) : Nat → Nat → Res (Bool × Nat)
  | 0, _ => outOfFuel
  | d + 1, i => validAnyLoop (validAny json d) json (json.length + 1) i

/-- valid.rs:76-81: only whitespace may follow the value. -/
def validTrail (json : Bytes) : Nat → Nat → Res Bool
  | 0, _ => outOfFuel
  | n + 1, i =>
    if i < json.length then do
      let c ← idx json i
      if !isspace c then .ok false
      else validTrail json n (i + 1)
    else .ok true

/-- valid.rs:68-83 `valid`. -/
def valid (json : Bytes) : Res Bool := do
  let (v, i) ← validAny json (json.length + 1) 0
  if !v then .ok false
  else validTrail json (json.length + 1) i

end Gjson
