import Verif.Basic
/-
Model of the byte scanners of /repo/src/lib.rs (lines 436-569) and of the
info bits (lines 21-78).
-/
namespace Gjson

/-- lib.rs:23-33 `Kind`, in declaration order (`as i32` gives 0..6). -/
inductive Kind where
  | null | false | number | string | true | array | object
deriving DecidableEq, Repr

/-- lib.rs:49: `*self as i32`. -/
def Kind.toNat : Kind → Nat
  | .null => 0 | .false => 1 | .number => 2 | .string => 3 | .true => 4 | .array => 5 | .object => 6

/-- lib.rs:53-66: the info bits. -/
def INFO_NULL : UInt32 := (1 : UInt32) <<< 1
@[inherit_doc INFO_NULL] def INFO_FALSE : UInt32 := (1 : UInt32) <<< 2
@[inherit_doc INFO_NULL] def INFO_NUMBER : UInt32 := (1 : UInt32) <<< 3
@[inherit_doc INFO_NULL] def INFO_STRING : UInt32 := (1 : UInt32) <<< 4
@[inherit_doc INFO_NULL] def INFO_TRUE : UInt32 := (1 : UInt32) <<< 5
@[inherit_doc INFO_NULL] def INFO_OBJECT : UInt32 := (1 : UInt32) <<< 6
@[inherit_doc INFO_NULL] def INFO_ARRAY : UInt32 := (1 : UInt32) <<< 7
@[inherit_doc INFO_NULL] def INFO_ESC : UInt32 := (1 : UInt32) <<< 8
@[inherit_doc INFO_NULL] def INFO_SIGN : UInt32 := (1 : UInt32) <<< 9
@[inherit_doc INFO_NULL] def INFO_DOT : UInt32 := (1 : UInt32) <<< 10
@[inherit_doc INFO_NULL] def INFO_E : UInt32 := (1 : UInt32) <<< 11
@[inherit_doc INFO_NULL] def INFO_FOG : UInt32 := (1 : UInt32) <<< 12

/-- lib.rs:68-78 `KINDMAP[n]`: default `Null`, later assignments win. -/
def kindMap (n : UInt32) : Kind :=
  if n = INFO_ARRAY then .array
  else if n = INFO_OBJECT then .object
  else if n = INFO_TRUE then .true
  else if n = INFO_STRING then .string
  else if n = INFO_NUMBER then .number
  else if n = INFO_FALSE then .false
  else .null

/-- lib.rs:436-440: the character class bits. -/
def CHQUOTE : UInt8 := (1 : UInt8) <<< 1
@[inherit_doc CHQUOTE] def CHOPEN : UInt8 := (1 : UInt8) <<< 2
@[inherit_doc CHQUOTE] def CHCLOSE : UInt8 := (1 : UInt8) <<< 3
@[inherit_doc CHQUOTE] def CHSTRTOK : UInt8 := (1 : UInt8) <<< 4
@[inherit_doc CHQUOTE] def CHSQUASH : UInt8 := (1 : UInt8) <<< 5

/-- lib.rs:442-455 `CHTABLE[c]`. -/
def chtable (c : UInt8) : UInt8 :=
  if c = c! '{' ∨ c = c! '[' ∨ c = c! '(' then CHSQUASH ||| CHOPEN
  else if c = c! '}' ∨ c = c! ']' ∨ c = c! ')' then CHSQUASH ||| CHCLOSE
  else if c = c! '"' then CHSQUASH ||| CHQUOTE ||| CHSTRTOK
  else if c = c! '\\' then CHSQUASH ||| CHSTRTOK
  else 0

/-- lib.rs:465-475: the loop of `scan_number`. -/
def scanNumberLoop (json : Bytes) : Nat → Nat → UInt32 → Res (UInt32 × Nat)
  | 0, _, _ => outOfFuel
  | n + 1, i, info =>
    if i < json.length then do
      let ch ← idx json i
      if ch = c! '.' then scanNumberLoop json n (i + 1) (info ||| INFO_DOT)
      else if ch = c! 'e' ∨ ch = c! 'E' then scanNumberLoop json n (i + 1) (info ||| INFO_E)
      else if (ch < c! '0' ∨ ch > c! '9') ∧ ch ≠ c! '-' ∧ ch ≠ c! '+' then .ok (info, i)
      else scanNumberLoop json n (i + 1) info
    else .ok (info, i)

/-- lib.rs:458-477 `scan_number`: (slice, info, next index). -/
def scanNumber (json : Bytes) (i : Nat) : Res (Bytes × UInt32 × Nat) := do
  let s := i
  let c ← idx json i
  let info := if c = c! '-' then INFO_SIGN else 0
  let (info, i) ← scanNumberLoop json (json.length + 1) (i + 1) info
  let v ← slice json s i
  .ok (v, info, i)

/-- lib.rs:488-495 and 531-538: `for _ in 0..8` with `get_unchecked`; `some ch`
is `break 'tok`. -/
def tokFor (mask : UInt8) (json : Bytes) : Nat → Nat → Res (Option UInt8 × Nat)
  | 0, i => .ok (none, i)
  | n + 1, i => do
    let ch ← idxUnchecked json i
    if chtable ch &&& mask = mask then .ok (some ch, i)
    else tokFor mask json n (i + 1)

/-- lib.rs:487-496 and 530-539: `while i + 8 < json.len()`. -/
def tokWhile8 (mask : UInt8) (json : Bytes) : Nat → Nat → Res (Option UInt8 × Nat)
  | 0, _ => outOfFuel
  | n + 1, i =>
    if i + 8 < json.length then do
      match ← tokFor mask json 8 i with
      | (some ch, i) => .ok (some ch, i)
      | (none, i) => tokWhile8 mask json n i
    else .ok (none, i)

/-- lib.rs:497-503 and 540-546: the byte-wise tail loop. -/
def tokWhile1 (mask : UInt8) (json : Bytes) : Nat → Nat → Res (Option UInt8 × Nat)
  | 0, _ => outOfFuel
  | n + 1, i =>
    if i < json.length then do
      let ch ← idx json i
      if chtable ch &&& mask = mask then .ok (some ch, i)
      else tokWhile1 mask json n (i + 1)
    else .ok (none, i)

/-- lib.rs:486-505 and 529-548: the labelled block `'tok`, shared by
`scan_string` (mask `CHSTRTOK`) and `scan_squash` (mask `CHSQUASH`). `some ch`:
token byte found at the index; `none`: `break 'outer`. -/
def tok (mask : UInt8) (json : Bytes) (i : Nat) : Res (Option UInt8 × Nat) := do
  match ← tokWhile8 mask json (json.length + 1) i with
  | (some ch, i) => .ok (some ch, i)
  | (none, i) => tokWhile1 mask json (json.length + 1) i

/-- lib.rs:484-519: the outer loop of `scan_string`. -/
def scanStringLoop (json : Bytes) (s : Nat) : Nat → Nat → UInt32 → Res (Bytes × UInt32 × Nat)
  | 0, _, _ => outOfFuel
  | n + 1, i, info => do
    match ← tok CHSTRTOK json i with
    | (none, _) => .ok ([], 0, json.length)
    | (some ch, i) =>
      if ch = c! '"' then do
        let v ← slice json s (i + 1)
        .ok (v, info, i + 1)
      else
        let info := info ||| INFO_ESC
        let i := i + 1
        if i = json.length then .ok ([], 0, json.length)
        else scanStringLoop json s n (i + 1) info

/-- lib.rs:480-520 `scan_string`: (slice with quotes, info, next index); an
unterminated string gives `("", 0, json.len())`. -/
def scanString (json : Bytes) (i : Nat) : Res (Bytes × UInt32 × Nat) :=
  scanStringLoop json i (json.length + 1) (i + 1) 0

/-- lib.rs:527-568: the outer loop of `scan_squash`. `depth` starts at 1, so the
test `depth == 0` after the decrement is `depth = 1` before it (the `i32`
counter cannot be 0 here, and its overflow at 2^31 open brackets is not
modelled). -/
def scanSquashLoop (json : Bytes) (s : Nat) : Nat → Nat → Nat → Res (Bytes × Nat)
  | 0, _, _ => outOfFuel
  | n + 1, i, depth => do
    match ← tok CHSQUASH json i with
    | (none, _) => .ok ([], json.length)
    | (some ch, i) =>
      if ch = c! '"' then do
        let (_, _, i) ← scanString json i
        scanSquashLoop json s n i depth
      else if chtable ch &&& CHOPEN = CHOPEN then scanSquashLoop json s n (i + 1) (depth + 1)
      else if chtable ch &&& CHCLOSE = CHCLOSE then
        let depth := depth - 1
        if depth = 0 then do
          let v ← slice json s (i + 1)
          .ok (v, i + 1)
        else scanSquashLoop json s n (i + 1) depth
      else if ch = c! '\\' then
        let i := i + 1
        if i = json.length then .ok ([], json.length)
        else scanSquashLoop json s n (i + 1) depth
      else scanSquashLoop json s n (i + 1) depth

/-- lib.rs:523-569 `scan_squash`: (slice, next index); an unclosed bracket gives
`("", json.len())`. -/
def scanSquash (json : Bytes) (i : Nat) : Res (Bytes × Nat) :=
  scanSquashLoop json i (json.length + 1) (i + 1) 1

end Gjson
