import Mathlib.Algebra.Order.Field.Rat
import Mathlib.Algebra.Order.Field.Basic
import Verif.Spec
import Verif.Model.Num
/-
Specification vocabulary for numbers: the rational number a JSON number denotes, and
IEEE 754 rounding to binary64 and binary32. Of the model only the type `F64` is used,
in which `fin neg k` stands for `±k * 2^-1074`.
-/
namespace Gjson.Spec

/-- The value of the exponent part of a number. -/
def expVal : Bytes → Int
  | [] => 0
  | _ :: r =>
    match r with
    | [] => 0
    | s :: ds => if s = c! '-' then -(decVal ds : Int) else if s = c! '+' then (decVal ds : Int) else (decVal r : Int)

/-- RFC 8259 section 6: `t` is a number, negative or not (`-0` is), with absolute value
`q`: the digits of the integer and the fraction, scaled by the exponent and the
length of the fraction. -/
def NumDenotes (t : Bytes) (neg : Bool) (q : ℚ) : Prop :=
  ∃ sg ip fp ep, t = sg ++ (ip ++ (fp ++ ep)) ∧ sg = (if neg then [c! '-'] else []) ∧
    IntPart ip ∧ FracPart fp ∧ ExpPart ep ∧
    q = (decVal (ip ++ fp.drop 1) : ℚ) * 10 ^ (expVal ep - ((fp.drop 1).length : Int))

/-- A binary floating point format. The magnitudes are counted in steps of `2^-1074`:
`m * 2^a` with `m < 2^bits` and `step ≤ a`, below `2^limit`. -/
structure Format where
  bits : Nat
  step : Nat
  limit : Nat

/-- IEEE 754 binary64: 53 bits, smallest magnitude `2^-1074`, largest below `2^1024`. -/
def binary64 : Format := ⟨53, 0, 2098⟩

/-- IEEE 754 binary32: 24 bits, smallest magnitude `2^-149`, largest below `2^128`. -/
def binary32 : Format := ⟨24, 925, 1202⟩

/-- `k` steps of `2^-1074` is a magnitude of the format. -/
def Format.Has (f : Format) (k : Nat) : Prop :=
  k < 2 ^ f.limit ∧ ∃ m a, k = m * 2 ^ a ∧ m < 2 ^ f.bits ∧ f.step ≤ a

/-- The significand of `k` in the format is even. -/
def Format.Even (f : Format) (k : Nat) : Prop :=
  ∃ m a, k = m * 2 ^ a ∧ m < 2 ^ f.bits ∧ f.step ≤ a ∧ (a = f.step ∨ 2 ^ (f.bits - 1) ≤ m) ∧ m % 2 = 0

/-- `k` steps of `2^-1074` as a number. -/
def mag (k : Nat) : ℚ := (k : ℚ) / 2 ^ 1074

/-- IEEE 754 section 7.4: magnitudes from here on become infinite. For binary64 this is
`2^1024 - 2^970`, half a unit in the last place above the largest finite number. -/
def Format.bound (f : Format) : ℚ := 2 ^ (f.limit - 1074) - 2 ^ (f.limit - 1074 - f.bits - 1)

/-- IEEE 754 roundTiesToEven: `x` is the number with the given sign whose magnitude is
nearest to `q` in the format; of two that are equally near, the one with an even
significand; infinite from the bound on. -/
def Format.Rounds (f : Format) (neg : Bool) (q : ℚ) (x : F64) : Prop :=
  (q < f.bound ∧ ∃ k, x = .fin neg k ∧ f.Has k ∧
    ∀ y, f.Has y → |mag k - q| ≤ |mag y - q| ∧ (y ≠ k → |mag k - q| = |mag y - q| → f.Even k)) ∨
  (f.bound ≤ q ∧ x = .inf neg)

/-- The number with the given sign and absolute value. -/
def signedQ (neg : Bool) (q : ℚ) : ℚ := if neg then -q else q

/-- `n` is `x` truncated toward zero and brought into the range `lo..hi`; 0 for NaN. -/
def F64.Truncated (lo hi : Int) : F64 → Int → Prop
  | .nan, n => n = 0
  | .inf neg, n => n = if neg then lo else hi
  | .fin neg k, n => ∃ t : Nat, (t : ℚ) ≤ mag k ∧ mag k < t + 1 ∧ n = max lo (min hi (if neg then -(t : Int) else (t : Int)))

/-- The order of the floating point numbers. -/
def F64.Below : F64 → F64 → Prop
  | .nan, _ => False
  | _, .nan => False
  | .inf a, .inf b => a = true ∧ b = false
  | .inf a, .fin _ _ => a = true
  | .fin _ _, .inf b => b = false
  | .fin a k, .fin b l => signedQ a (mag k) < signedQ b (mag l)

/-- Equality of floating point numbers: `0.0` and `-0.0` are equal, NaN is not equal to itself. -/
def F64.Equal : F64 → F64 → Prop
  | .nan, _ => False
  | _, .nan => False
  | .inf a, .inf b => a = b
  | .inf _, .fin _ _ => False
  | .fin _ _, .inf _ => False
  | .fin a k, .fin b l => signedQ a (mag k) = signedQ b (mag l)

/-! ### Numbers in arbitrary text

The number syntax of Rust's standard library (`f64::from_str`, `i64::from_str`,
`u64::from_str`), which is wider than JSON's: a `+` sign, leading zeros, no digits
before or after the point, and the words for infinity and NaN. -/

/-- An optional sign. -/
def SignOf (sg : Bytes) (neg : Bool) : Prop := if neg then sg = b!"-" else sg = [] ∨ sg = b!"+"

/-- `s` is the lower case word `w` in upper, lower or mixed case. -/
def AnyCase : Bytes → Bytes → Prop
  | [], [] => True
  | c :: s, l :: w => (c = l ∨ c + 0x20 = l) ∧ AnyCase s w
  | _, _ => False

/-- `digit+ | digit+ '.' digit* | digit* '.' digit+`, then an optional exponent; `q` is
the number written. -/
def DecimalText (t : Bytes) (q : ℚ) : Prop :=
  ∃ ip fp ep, t = ip ++ (fp ++ ep) ∧ (∀ c ∈ ip, IsDigit c) ∧
    ((fp = [] ∧ ip ≠ []) ∨ ∃ ds, fp = c! '.' :: ds ∧ (∀ c ∈ ds, IsDigit c) ∧ (ip ≠ [] ∨ ds ≠ [])) ∧ ExpPart ep ∧
    q = (decVal (ip ++ fp.drop 1) : ℚ) * 10 ^ (expVal ep - ((fp.drop 1).length : Int))

/-- The text is a floating point number and `x` is the nearest binary64 number. -/
def FloatText (t : Bytes) (x : F64) : Prop :=
  ∃ sg neg s, t = sg ++ s ∧ SignOf sg neg ∧
    ((∃ q, DecimalText s q ∧ binary64.Rounds neg q x) ∨
     ((AnyCase s b!"inf" ∨ AnyCase s b!"infinity") ∧ x = .inf neg) ∨
     (AnyCase s b!"nan" ∧ x = .nan))

/-- What any text is read as: 0 if it is no number. -/
def FloatOf (t : Bytes) (x : F64) : Prop := FloatText t x ∨ (∀ y, ¬ FloatText t y) ∧ x = .fin false 0

/-- The text is an optional sign and digits. -/
def IntText (t : Bytes) (neg : Bool) (n : Nat) : Prop :=
  ∃ sg ds, t = sg ++ ds ∧ SignOf sg neg ∧ ds ≠ [] ∧ (∀ c ∈ ds, IsDigit c) ∧ decVal ds = n

/-- What any text is read as by `i64()`: the integer if it is one and in range,
otherwise its floating point number truncated. -/
def SignedOf (t : Bytes) (n : Int) : Prop :=
  (∃ neg m, IntText t neg m ∧ m ≤ (if neg then 2 ^ 63 else 2 ^ 63 - 1) ∧ n = if neg then -(m : Int) else (m : Int)) ∨
  (∀ neg m, IntText t neg m → (if neg then 2 ^ 63 else 2 ^ 63 - 1) < m) ∧
    ∃ x, FloatOf t x ∧ F64.Truncated (-2 ^ 63) (2 ^ 63 - 1) x n

/-- What any text is read as by `u64()`. -/
def UnsignedOf (t : Bytes) (n : Nat) : Prop :=
  (IntText t false n ∧ n ≤ 2 ^ 64 - 1) ∨
  (∀ m, IntText t false m → 2 ^ 64 - 1 < m) ∧ ∃ x, FloatOf t x ∧ F64.Truncated 0 (2 ^ 64 - 1) x n

end Gjson.Spec
