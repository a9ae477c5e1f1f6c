import Verif.SpecQuery
/-
What quoted texts, values and queries say, for every sequence of bytes: nothing here asks for
a text that is JSON.
-/
namespace Gjson.Spec

/-- The number that the four bytes behind `\u` stand for: four hexadecimal digits, or a plus
sign and three digits; other bytes stand for no number. -/
def Quad (h1 h2 h3 h4 : UInt8) : Option Nat → Prop
  | some u => IsHex h2 ∧ IsHex h3 ∧ IsHex h4 ∧
      ((IsHex h1 ∧ u = codeUnit h1 h2 h3 h4) ∨ (h1 = c! '+' ∧ u = codeUnit (c! '0') h2 h3 h4))
  | none => ¬ ((IsHex h1 ∨ h1 = c! '+') ∧ IsHex h2 ∧ IsHex h3 ∧ IsHex h4)

/-- Here decoding stops: at the end, at a control byte, and at a backslash that begins no
escape. -/
inductive Halts : Bytes → Prop
  | nil : Halts []
  | control {c : UInt8} {r : Bytes} : c < 0x20 → Halts (c :: r)
  | lone : Halts [c! '\\']
  | unknown {e : UInt8} {r : Bytes} : ¬ IsSimpleEsc e → e ≠ c! 'u' → Halts (c! '\\' :: e :: r)
  | short {r : Bytes} : r.length < 4 → Halts (c! '\\' :: c! 'u' :: r)

/-- The text decoded from the bytes `b` between two quotes. The rules are those of `Shown`;
decoding stops where no rule applies, a quote stands for itself, and `\u` takes the four
bytes behind it, whatever they are: if they are no number, for U+FFFD. -/
inductive Unquoted : Bytes → Bytes → Prop
  | ends {b : Bytes} : Halts b → Unquoted b []
  | plain {c : UInt8} {r t : Bytes} : 0x20 ≤ c → c ≠ c! '\\' → Unquoted r t → Unquoted (c :: r) (c :: t)
  | esc {e o : UInt8} {r t : Bytes} : (e, o) ∈ escTable → Unquoted r t → Unquoted (c! '\\' :: e :: r) (o :: t)
  | bmp {h1 h2 h3 h4 : UInt8} {u : Nat} {r t : Bytes} : Quad h1 h2 h3 h4 (some u) → ¬ IsSurrogate u → Unquoted r t →
      Unquoted (c! '\\' :: c! 'u' :: h1 :: h2 :: h3 :: h4 :: r) (utf8 u ++ t)
  | noNumber {h1 h2 h3 h4 : UInt8} {r t : Bytes} : Quad h1 h2 h3 h4 none → Unquoted r t →
      Unquoted (c! '\\' :: c! 'u' :: h1 :: h2 :: h3 :: h4 :: r) (utf8 0xFFFD ++ t)
  | pair {h1 h2 h3 h4 g1 g2 g3 g4 : UInt8} {u v cp : Nat} {r t : Bytes} : Quad h1 h2 h3 h4 (some u) → Quad g1 g2 g3 g4 (some v) →
      IsPair u v → cp = pairPoint u v → Unquoted r t →
      Unquoted (c! '\\' :: c! 'u' :: h1 :: h2 :: h3 :: h4 :: c! '\\' :: c! 'u' :: g1 :: g2 :: g3 :: g4 :: r)
        (utf8 (if cp / 0x10000 % 2 = 1 then cp else cp - 0x10000) ++ t)
  | broken {h1 h2 h3 h4 g1 g2 g3 g4 : UInt8} {u : Nat} {o : Option Nat} {r t : Bytes} : Quad h1 h2 h3 h4 (some u) → IsSurrogate u →
      Quad g1 g2 g3 g4 o → (∀ v ∈ o, ¬ IsPair u v) → Unquoted r t →
      Unquoted (c! '\\' :: c! 'u' :: h1 :: h2 :: h3 :: h4 :: c! '\\' :: c! 'u' :: g1 :: g2 :: g3 :: g4 :: r) (utf8 0xFFFD ++ t)
  | lone {h1 h2 h3 h4 : UInt8} {u : Nat} {r t : Bytes} : Quad h1 h2 h3 h4 (some u) → IsSurrogate u →
      (∀ g1 g2 g3 g4 q, r ≠ c! '\\' :: c! 'u' :: g1 :: g2 :: g3 :: g4 :: q) → Unquoted r t →
      Unquoted (c! '\\' :: c! 'u' :: h1 :: h2 :: h3 :: h4 :: r) (utf8 0xFFFD ++ t)

/-- The content of the bytes `b` between two quotes: decoded if there is a backslash, `b`
itself otherwise, control bytes included. -/
def Told (b s : Bytes) : Prop := if c! '\\' ∈ b then Unquoted b s else s = b

/-! ### The accessors -/

/-- `str()` of the value with the text `x`. -/
inductive StrOf : Bytes → Bytes → Prop
  | string {b s : Bytes} : QuotedBody b → Told b s → StrOf (c! '"' :: (b ++ [c! '"'])) s
  | self {x : Bytes} : kindOf x = .number ∨ kindOf x = .object ∨ kindOf x = .array → StrOf x x
  | true {x : Bytes} : kindOf x = .true → StrOf x b!"true"
  | false {x : Bytes} : kindOf x = .false → StrOf x b!"false"
  | null {x : Bytes} : kindOf x = .null → StrOf x []

/-- The text that the value with the text `x` is read from as a number. -/
inductive NumTextOf : Bytes → Bytes → Prop
  | string {b s : Bytes} : QuotedBody b → Told b s → NumTextOf (c! '"' :: (b ++ [c! '"'])) s
  | number {x : Bytes} : kindOf x = .number → NumTextOf x x

/-- The number read from the value with the text `x`: by `R` from its number text; `one` for a
text that begins as `true` does, `zero` for the others. -/
inductive NumberOf {α : Type} (R : Bytes → α → Prop) (one zero : α) : Bytes → α → Prop
  | read {x t : Bytes} {n : α} : NumTextOf x t → R t n → NumberOf R one zero x n
  | true {x : Bytes} : kindOf x = .true → NumberOf R one zero x one
  | other {x : Bytes} : kindOf x ≠ .string → kindOf x ≠ .number → kindOf x ≠ .true → NumberOf R one zero x zero

/-- `i64()`, `u64()` and `f64()` of the value with the text `x`. -/
def I64Of : Bytes → Int → Prop := NumberOf SignedOf 1 0
def U64Of : Bytes → Nat → Prop := NumberOf UnsignedOf 1 0
def F64Of : Bytes → F64 → Prop := NumberOf FloatOf (.fin false (2 ^ 1074)) (.fin false 0)

/-- `bool()` of the value with the text `x`. -/
inductive BoolOf : Bytes → Bool → Prop
  | yes {x : Bytes} : x ∈ trueTexts → BoolOf x true
  | no {x : Bytes} : x ∈ falseTexts → BoolOf x false
  | num {x : Bytes} {n : Int} : x ∉ trueTexts → x ∉ falseTexts → I64Of x n → BoolOf x (decide (n ≠ 0))

/-! ### Queries -/

/-- What the right hand side of a query stands for: bytes between quotes for their content,
anything else for itself, as do two quotes with nothing between them. -/
inductive RightSide : Bytes → Bytes → Prop
  | quoted {b r : Bytes} : b ≠ [] → Told b r → RightSide (c! '"' :: (b ++ [c! '"'])) r
  | self {rh : Bytes} : (∀ b, rh = c! '"' :: (b ++ [c! '"']) → b = []) → RightSide rh rh

/-- What a query sees of a value. -/
inductive View
  | missing | string (s : Bytes) | number (x : F64) | bool (b : Bool) | other

/-- What a query sees of the value with the text `x`. -/
inductive Viewed : Bytes → View → Prop
  | missing : Viewed [] .missing
  | string {x s : Bytes} : kindOf x = .string → StrOf x s → Viewed x (.string s)
  | number {x : Bytes} {y : F64} : kindOf x = .number → FloatOf x y → Viewed x (.number y)
  | true {x : Bytes} : kindOf x = .true → Viewed x (.bool true)
  | false {x : Bytes} : kindOf x = .false → Viewed x (.bool false)
  | other {x : Bytes} : x ≠ [] → kindOf x = .null ∨ kindOf x = .object ∨ kindOf x = .array → Viewed x .other

/-- `Answer w op r b`: the query with the operator `op` answers `b` if it sees `w` on the left
and the right hand side stands for `r`. -/
inductive Answer : View → Bytes → Bytes → Bool → Prop
  | missing {op r : Bytes} : Answer .missing op r false
  | exists {w : View} {r : Bytes} : w ≠ .missing → Answer w [] r true
  | string {op : Op} {s r : Bytes} {b : Bool} : (b = true ↔ op.onTexts s r) → Answer (.string s) op.name r b
  | number {op : Op} {y z : F64} {r : Bytes} {lt eq gt : Bool} : FloatOf r z → (lt = true ↔ F64.Below y z) → (eq = true ↔ F64.Equal y z) →
      (gt = true ↔ F64.Below z y) → Answer (.number y) op.name r (op.holds lt eq gt)
  | bool {op : Op} {x : Bool} {r : Bytes} : Answer (.bool x) op.name r (op.onBool x r)
  | other {op : Op} {r : Bytes} : Answer .other op.name r false
  /-- an operator that is none of the eight -/
  | unknown {w : View} {op r : Bytes} : w ≠ .missing → op ≠ [] → (∀ o : Op, op ≠ o.name) → Answer w op r false

/-- The answer of the query with the operator `op` and the right hand side `rh` for the value
with the text `x`: behind `~` the truth value is compared. -/
inductive Answers : Bytes → Bytes → Bytes → Bool → Prop
  | plain {x op rh r : Bytes} {w : View} {b : Bool} : RightSide rh r → (∀ c ∈ r.head?, c ≠ c! '~') → Viewed x w → Answer w op r b →
      Answers x op rh b
  | truth {x op rh r : Bytes} {t b : Bool} : RightSide rh (c! '~' :: r) → BoolOf x t → Answer (.bool t) op r b → Answers x op rh b

end Gjson.Spec
