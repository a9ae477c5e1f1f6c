import Verif.Basic
/-
Model of /repo/src/util.rs.

`tostr` (util.rs:16-21) reinterprets bytes as `&str` without change, so it has
no counterpart here: `&str` and `&[u8]` are both `Bytes`. Whether the bytes are
valid UTF-8 is the subject of separate theorems.
-/
namespace Gjson

/-- util.rs:24-26, first loop of `trim`: drop leading bytes `<= b' '`. -/
def trimStart : Bytes → Bytes
  | [] => []
  | c :: r => if c ≤ c! ' ' then trimStart r else c :: r

/-- util.rs:23-31 `trim`. The second loop (27-29) shortens the slice from the
end; the model does this on the reversed list. -/
def trim (bin : Bytes) : Bytes :=
  (trimStart (trimStart bin).reverse).reverse

/-- Value of an ASCII hexadecimal digit (`char::to_digit(16)`, Rust std).
For `from_str_radix` at util.rs:64, 69. -/
def hexVal (c : UInt8) : Option Nat :=
  if c! '0' ≤ c ∧ c ≤ c! '9' then some (c.toNat - 48)
  else if c! 'a' ≤ c ∧ c ≤ c! 'f' then some (c.toNat - 87)
  else if c! 'A' ≤ c ∧ c ≤ c! 'F' then some (c.toNat - 55)
  else none

/-- Accumulate hexadecimal digits, `none` at the first non-digit.
For `from_str_radix` at util.rs:64, 69. -/
def hexDigits : Nat → Bytes → Option Nat
  | acc, [] => some acc
  | acc, c :: r =>
    match hexVal c with
    | some d => hexDigits (acc * 16 + d) r
    | none => none

/-- Rust std `u32::from_str_radix(s, 16)`: optional leading `+`, at least one
digit, overflow is an error. Used at util.rs:64, 69. -/
def fromStrRadix16 (s : Bytes) : Option Nat :=
  let digits := match s with
    | c :: r => if c = c! '+' then r else c :: r
    | [] => []
  if digits = [] then none
  else match hexDigits 0 digits with
    | some n => if n < 4294967296 then some n else none
    | none => none

/-- util.rs:96-98 `utf16_is_surrogate`. -/
def utf16IsSurrogate (r : Nat) : Bool := 0xd800 ≤ r && r < 0xe000

/-- util.rs:100-106 `utf16_decode`. Rust precedence: `+` binds tighter than
`<<`, which binds tighter than `|`. -/
def utf16Decode (r1 r2 : Nat) : Nat :=
  if 0xd800 ≤ r1 ∧ r1 < 0xdc00 ∧ 0xdc00 ≤ r2 ∧ r2 < 0xe000 then
    ((r1 - 0xd800) <<< 10) ||| ((r2 - 0xdc00) + 0x10000)
  else
    0xFFFD

/-- Rust std `char::from_u32(r).unwrap_or(REPLACEMENT_CHARACTER)` as a code point.
Used at util.rs:77. -/
def charFromU32 (r : Nat) : Nat :=
  if r < 0xd800 ∨ (0xe000 ≤ r ∧ r < 0x110000) then r else 0xFFFD

/-- Rust std `char::encode_utf8`. Used at util.rs:82. -/
def encodeUtf8 (r : Nat) : Bytes :=
  if r < 0x80 then [UInt8.ofNat r]
  else if r < 0x800 then
    [UInt8.ofNat (0xC0 + r / 0x40), UInt8.ofNat (0x80 + r % 0x40)]
  else if r < 0x10000 then
    [UInt8.ofNat (0xE0 + r / 0x1000), UInt8.ofNat (0x80 + r / 0x40 % 0x40),
     UInt8.ofNat (0x80 + r % 0x40)]
  else
    [UInt8.ofNat (0xF0 + r / 0x40000), UInt8.ofNat (0x80 + r / 0x1000 % 0x40),
     UInt8.ofNat (0x80 + r / 0x40 % 0x40), UInt8.ofNat (0x80 + r % 0x40)]

/-- util.rs:59-84, the `\u` arm of `unescape`: `i` is the index of the `u`.
Returns `none` for the `break` at 60-62, else the code point to append and the
next index. Lines 78-83 (push ten zeros, encode, truncate) append the UTF-8
encoding, done by the caller. -/
def unescapeU (json : Bytes) (i : Nat) : Res (Option (Nat × Nat)) :=
  if i + 5 > json.length then .ok none
  else do
    let h ← slice json (i + 1) (i + 5)
    let r := (fromStrRadix16 h).getD 0xFFFD
    let i := i + 5
    if utf16IsSurrogate r then
      let restLen := (← sliceFrom json i).length
      if restLen ≥ 6 then
        if (← idx json i) = c! '\\' then
          if (← idx json (i + 1)) = c! 'u' then
            let h2 ← slice json (i + 2) (i + 6)
            match fromStrRadix16 h2 with
            | some r2 => .ok (some (charFromU32 (utf16Decode r r2), i + 6))
            | none => .ok (some (charFromU32 0xFFFD, i + 6))
          else .ok (some (charFromU32 r, i))
        else .ok (some (charFromU32 r, i))
      else .ok (some (charFromU32 r, i))
    else .ok (some (charFromU32 r, i))

/-- util.rs:50-58: the single-character escapes of `unescape`. -/
def simpleEscape (c : UInt8) : Option UInt8 :=
  if c = c! '"' then some c! '"'
  else if c = c! '\\' then some c! '\\'
  else if c = c! '/' then some c! '/'
  else if c = c! 'b' then some 8
  else if c = c! 'f' then some 12
  else if c = c! 'n' then some c! '\n'
  else if c = c! 'r' then some c! '\r'
  else if c = c! 't' then some c! '\t'
  else none

/-- util.rs:42-92, the main loop of `unescape` over the inner bytes. -/
def unescapeLoop (json : Bytes) : Nat → Nat → Bytes → Res Bytes
  | 0, _, _ => outOfFuel
  | n + 1, i, out =>
    if i = json.length then .ok out
    else do
      let c ← idx json i
      if c < c! ' ' then .ok out
      else if c = c! '\\' then
        let i := i + 1
        if i = json.length then .ok out
        else do
          let e ← idx json i
          match simpleEscape e with
          | some o => unescapeLoop json n (i + 1) (out ++ [o])
          | none =>
            if e = c! 'u' then
              match ← unescapeU json i with
              | none => .ok out
              | some (ch, i') => unescapeLoop json n i' (out ++ encodeUtf8 ch)
            else .ok out
      else unescapeLoop json n (i + 1) (out ++ [c])

/-- util.rs:34-94 `unescape` (public as `tools::unescape`). -/
def unescape (json : Bytes) : Res Bytes :=
  if json.length < 2 then .ok []
  else do
    let first ← idx json 0
    let last ← idx json (json.length - 1)
    if first ≠ c! '"' ∨ last ≠ c! '"' then .ok []
    else do
      let inner ← slice json 1 (json.length - 1)
      unescapeLoop inner (inner.length + 1) 0 []

/-- util.rs:143-146: one upper-case hexadecimal digit. -/
def hexDigitUpper (h : UInt8) : UInt8 :=
  if h < 10 then h + c! '0' else (h - 10) + c! 'A'

/-- util.rs:129-151: the output for one byte of the string. -/
def escapeByte (c : UInt8) : Bytes :=
  if c < c! ' ' ∨ c = c! '\n' ∨ c = c! '\\' ∨ c = c! '"' then
    c! '\\' ::
      (if c = c! '"' then [c! '"']
       else if c = c! '\\' then [c! '\\']
       else if c = 8 then [c! 'b']
       else if c = 12 then [c! 'f']
       else if c = c! '\n' then [c! 'n']
       else if c = c! '\r' then [c! 'r']
       else if c = c! '\t' then [c! 't']
       else [c! 'u', c! '0', c! '0', hexDigitUpper (c >>> 4), hexDigitUpper (c &&& 0xF)])
  else [c]

/-- util.rs:126-154 `extend_json_string`: the bytes appended to `out`. The
`for i in 0..s.len()` loop visits every byte once, in order. -/
def jsonString (s : Bytes) : Bytes :=
  [c! '"'] ++ s.flatMap escapeByte ++ [c! '"']

/-- util.rs:157-161 `escape` (public as `tools::escape`). -/
def escape (s : Bytes) : Bytes := jsonString s

/-- util.rs:174-214 `pmatch`. One unfolding is one iteration of the `while`
loop; `pattern`/`string` are the shrinking slices. -/
def pmatchN : Nat → Bytes → Bytes → Res Bool
  | 0, _, _ => outOfFuel
  | n + 1, pattern, string =>
    match pattern with
    | [] => .ok (string.length = 0 ∧ pattern.length = 0)        -- 213
    | p0 :: rest =>
      -- 204-211: compare one character and advance
      let step (p0 : UInt8) (rest : Bytes) : Res Bool :=
        match string with
        | [] => .ok false
        | s0 :: srest =>
          if p0 ≠ c! '?' ∧ s0 ≠ p0 then .ok false
          else pmatchN n rest srest
      if p0 = c! '\\' then                                       -- 182-186
        match rest with
        | [] => .ok false
        | p1 :: rest' => step p1 rest'
      else if p0 = c! '*' then                                   -- 187-203
        match rest with
        | [] => .ok true
        | p1 :: _ =>
          if p1 = c! '*' then pmatchN n rest string
          else do
            if ← pmatchN n rest string then .ok true
            else match string with
              | [] => .ok false
              | _ :: srest => pmatchN n pattern srest
      else step p0 rest

/-- util.rs:174 `pmatch(pattern, string)`. -/
def pmatch (pattern string : Bytes) : Res Bool :=
  pmatchN (pattern.length + string.length + 1) pattern string

end Gjson
