import Verif.Basic
/-
Model of the Rust standard-library number parsing used by gjson.rs
(`str::parse::<i64/u64/f64>`, float-to-integer `as` casts, `format!("{}", n)`).
This is not code of the repository: it is part of the trusted base. It follows
the documentation of `core::num`.
-/
namespace Gjson

/-- ASCII decimal digit. For `str::parse` at lib.rs:429, 433, 770. -/
def isDigit (c : UInt8) : Bool := c! '0' ≤ c && c ≤ c! '9'

/-- Decimal digits accumulated into a number, `none` at a non-digit.
For `str::parse` at lib.rs:429, 433, 770. -/
def decDigits : Nat → Bytes → Option Nat
  | acc, [] => some acc
  | acc, c :: r => if isDigit c then decDigits (acc * 10 + (c.toNat - 48)) r else none

/-- Non-empty string of decimal digits. For `str::parse` at lib.rs:429, 433, 770. -/
def parseNat (s : Bytes) : Option Nat := if s = [] then none else decDigits 0 s

/-- Rust std `s.parse::<i64>()` (`none` is `Err`). Used at lib.rs:429, 770. -/
def parseI64 (s : Bytes) : Option Int :=
  match s with
  | [] => none
  | c :: r =>
    if c = c! '-' then
      match parseNat r with
      | some n => if n ≤ 9223372036854775808 then some (-(n : Int)) else none
      | none => none
    else
      match parseNat (if c = c! '+' then r else s) with
      | some n => if n ≤ 9223372036854775807 then some (n : Int) else none
      | none => none

/-- Rust std `s.parse::<u64>()` (`none` is `Err`). Used at lib.rs:433. -/
def parseU64 (s : Bytes) : Option Nat :=
  match s with
  | [] => none
  | c :: r =>
    match parseNat (if c = c! '+' then r else s) with
    | some n => if n ≤ 18446744073709551615 then some n else none
    | none => none

/-- An IEEE 754 binary64 value. Every finite binary64 number is an integer
multiple of `2^-1074`; `fin neg k` is `±k * 2^-1074`. The type of lib.rs:218-232, 424-426. -/
inductive F64 where
  | nan
  | inf (neg : Bool)
  | fin (neg : Bool) (k : Nat)
deriving DecidableEq, Repr

namespace F64

/-- `2^1074`, the number of smallest positive steps in `1.0`.
Part of the `f64` of lib.rs:218-232. -/
def unit : Nat := 2 ^ 1074

/-- `0.0`. Used at lib.rs:230, 425, 845. -/
def zero : F64 := .fin false 0
/-- `1.0`. Used at lib.rs:221. -/
def one : F64 := .fin false unit

/-- The signed multiple of `2^-1074`. For the comparisons at lib.rs:113-115, 847-852. -/
def signed (neg : Bool) (k : Nat) : Int := if neg then -(k : Int) else (k : Int)

/-- IEEE `x < y`. Used at lib.rs:113-115, 849-852. -/
def lt : F64 → F64 → Bool
  | .nan, _ => false
  | _, .nan => false
  | .inf a, .inf b => a && !b
  | .inf a, .fin _ _ => a
  | .fin _ _, .inf b => !b
  | .fin a k, .fin b l => signed a k < signed b l

/-- IEEE `x == y`. Used at lib.rs:847-852. -/
def eq : F64 → F64 → Bool
  | .nan, _ => false
  | _, .nan => false
  | .inf a, .inf b => a == b
  | .inf _, .fin _ _ => false
  | .fin _ _, .inf _ => false
  | .fin a k, .fin b l => signed a k == signed b l

/-- IEEE `x <= y`. Used at lib.rs:850, 852. -/
def le (x y : F64) : Bool := lt x y || eq x y

/-- `num / den` rounded to the nearest natural number, ties to even.
For `str::parse` at lib.rs:425, 845. -/
def roundHalfEven (num den : Nat) : Nat :=
  let q := num / den
  let r := num % den
  if 2 * r < den then q
  else if 2 * r > den then q + 1
  else if q % 2 = 0 then q else q + 1

/-- The binary64 value nearest to `num / den` (ties to even), with the given sign.
For `str::parse` at lib.rs:425, 845. -/
def ofRat (neg : Bool) (num den : Nat) : F64 :=
  let q := num * unit / den
  let u := 2 ^ (Nat.log2 q - 52)
  let k := roundHalfEven (num * unit) (den * u) * u
  if k < 2 ^ (1024 + 1074) then .fin neg k else .inf neg

/-- Rust `x as i64`: truncate toward zero, saturate, NaN is 0. Used at lib.rs:429. -/
def toI64 : F64 → Int
  | .nan => 0
  | .inf neg => if neg then -9223372036854775808 else 9223372036854775807
  | .fin neg k =>
    let t : Int := ((k / unit : Nat) : Int)
    if neg then (if t ≤ 9223372036854775808 then -t else -9223372036854775808)
    else (if t ≤ 9223372036854775807 then t else 9223372036854775807)

/-- Rust `x as u64`: truncate toward zero, saturate, NaN is 0. Used at lib.rs:433. -/
def toU64 : F64 → Nat
  | .nan => 0
  | .inf neg => if neg then 0 else 18446744073709551615
  | .fin neg k =>
    if neg then 0
    else (if k / unit ≤ 18446744073709551615 then k / unit else 18446744073709551615)

/-- Rust `x as f32`: the nearest binary32 number, ties to even, infinite when too large.
Used at lib.rs:235. Simplification: the result is kept as an `F64`, every binary32
number being a binary64 number. -/
def toF32 : F64 → F64
  | .nan => .nan
  | .inf neg => .inf neg
  | .fin neg k =>
    let u := 2 ^ (max (Nat.log2 k - 23) 925)
    let r := roundHalfEven k u * u
    if r < 2 ^ (128 + 1074) then .fin neg r else .inf neg

end F64

/-- Longest prefix of decimal digits, and the rest. For `str::parse` at lib.rs:425, 845. -/
def spanDigits : Bytes → Bytes × Bytes
  | [] => ([], [])
  | c :: r => if isDigit c then ((c :: (spanDigits r).1), (spanDigits r).2) else ([], c :: r)

/-- Value of a string of decimal digits. For `str::parse` at lib.rs:425, 845. -/
def digitsVal (s : Bytes) : Nat := s.foldl (fun a c => a * 10 + (c.toNat - 48)) 0

/-- ASCII lower case. For `str::parse` at lib.rs:425, 845. -/
def lowerAscii (c : UInt8) : UInt8 := if c! 'A' ≤ c ∧ c ≤ c! 'Z' then c + 32 else c

/-- The exponent part of a float literal: empty, or `[eE] [+-]? digit+`.
For `str::parse` at lib.rs:425, 845. -/
def parseExp (s : Bytes) : Option Int :=
  match s with
  | [] => some 0
  | c :: r =>
    if c = c! 'e' ∨ c = c! 'E' then
      match r with
      | [] => none
      | d :: r' =>
        if d = c! '-' then (parseNat r').map fun n => -(n : Int)
        else (parseNat (if d = c! '+' then r' else r)).map fun n => (n : Int)
    else none

/-- `digits * 10^exp` as a binary64 value. For `str::parse` at lib.rs:425, 845. -/
def decToF64 (neg : Bool) (digits : Nat) (exp : Int) : F64 :=
  if 0 ≤ exp then F64.ofRat neg (digits * 10 ^ exp.toNat) 1
  else F64.ofRat neg digits (10 ^ (-exp).toNat)

/-- The unsigned part of a float literal (Rust `f64::from_str` grammar):
`inf | infinity | nan | ( digit+ | digit+ '.' digit* | digit* '.' digit+ ) exp?`.
For `str::parse` at lib.rs:425, 845. -/
def parseF64Unsigned (neg : Bool) (s : Bytes) : Option F64 :=
  let low := s.map lowerAscii
  if low = b!"inf" ∨ low = b!"infinity" then some (.inf neg)
  else if low = b!"nan" then some .nan
  else
    let ip := (spanDigits s).1
    let r := (spanDigits s).2
    match r with
    | [] => if ip = [] then none else some (decToF64 neg (digitsVal ip) 0)
    | c :: r' =>
      if c = c! '.' then
        let fp := (spanDigits r').1
        if ip = [] ∧ fp = [] then none
        else (parseExp (spanDigits r').2).map fun e =>
          decToF64 neg (digitsVal (ip ++ fp)) (e - fp.length)
      else
        if ip = [] then none
        else (parseExp r).map fun e => decToF64 neg (digitsVal ip) e

/-- Rust std `s.parse::<f64>()` (`none` is `Err`). Used at lib.rs:425, 845. -/
def parseF64 (s : Bytes) : Option F64 :=
  match s with
  | [] => none
  | c :: r =>
    if c = c! '-' then parseF64Unsigned true r
    else if c = c! '+' then parseF64Unsigned false r
    else parseF64Unsigned false s

/-- Decimal digits of `n`, most significant first, with fuel. For `format!` at lib.rs:760. -/
def natDigits : Nat → Nat → Bytes
  | 0, _ => []
  | fuel + 1, n =>
    if n < 10 then [UInt8.ofNat (48 + n)]
    else natDigits fuel (n / 10) ++ [UInt8.ofNat (48 + n % 10)]

/-- Rust std `format!("{}", n)` for an unsigned number. Used at lib.rs:760. -/
def natDec (n : Nat) : Bytes := natDigits (n + 1) n

/-- Rust std `format!("{}", n)` for a signed number.
The repository only formats a count (lib.rs:760); this signed form is used by lemmas on numerals. -/
def intDec (n : Int) : Bytes :=
  if n < 0 then c! '-' :: natDec n.natAbs else natDec n.natAbs

end Gjson
