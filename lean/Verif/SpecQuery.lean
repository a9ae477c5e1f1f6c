import Verif.SpecNum
import Verif.SpecStr
/-
What the accessors read from the text of a value, and what a query decides about it.
-/
namespace Gjson.Spec

/-- The string literal `lit` has the content `s`. -/
def Content (lit s : Bytes) : Prop := ∃ b, StrBody b ∧ lit = c! '"' :: (b ++ [c! '"']) ∧ Shown b s

/-- The text of a boolean. -/
def boolText (b : Bool) : Bytes := if b then b!"true" else b!"false"

/-- Nothing, `null`, or the text of an array or object. -/
def NoScalar (x : Bytes) : Prop := x = [] ∨ x = b!"null" ∨ kindOf x = .object ∨ kindOf x = .array

/-- `str()` of the value with the text `x`. -/
inductive StrVal : Bytes → Bytes → Prop
  | none : StrVal [] []
  | null : StrVal b!"null" []
  | str {x s : Bytes} : Content x s → StrVal x s
  | num {x : Bytes} : NumLit x → StrVal x x
  | bool (b : Bool) : StrVal (boolText b) (boolText b)
  | cont {x : Bytes} : kindOf x = .object ∨ kindOf x = .array → StrVal x x

/-- `i64()` of the value with the text `x`. -/
inductive SignedVal : Bytes → Int → Prop
  | num {x : Bytes} {n : Int} : NumLit x → SignedOf x n → SignedVal x n
  | str {x s : Bytes} {n : Int} : Content x s → SignedOf s n → SignedVal x n
  | bool (b : Bool) : SignedVal (boolText b) (if b then 1 else 0)
  | other {x : Bytes} : NoScalar x → SignedVal x 0

/-- `u64()` of the value with the text `x`. -/
inductive UnsignedVal : Bytes → Nat → Prop
  | num {x : Bytes} {n : Nat} : NumLit x → UnsignedOf x n → UnsignedVal x n
  | str {x s : Bytes} {n : Nat} : Content x s → UnsignedOf s n → UnsignedVal x n
  | bool (b : Bool) : UnsignedVal (boolText b) (if b then 1 else 0)
  | other {x : Bytes} : NoScalar x → UnsignedVal x 0

/-- The texts read as true. -/
def trueTexts : List Bytes :=
  [b!"true", b!"1", b!"\"t\"", b!"\"T\"", b!"\"1\"", b!"\"true\"", b!"\"TRUE\"", b!"\"True\""]

/-- The texts read as false. -/
def falseTexts : List Bytes :=
  [b!"false", b!"0", b!"\"f\"", b!"\"F\"", b!"\"0\"", b!"\"false\"", b!"\"FALSE\"", b!"\"False\""]

/-- `bool()` of the value with the text `x`. -/
inductive Truth : Bytes → Bool → Prop
  | yes {x : Bytes} : x ∈ trueTexts → Truth x true
  | no {x : Bytes} : x ∈ falseTexts → Truth x false
  | num {x : Bytes} {n : Int} : x ∉ trueTexts → x ∉ falseTexts → SignedVal x n → Truth x (decide (n ≠ 0))

/-- What the operators mean on strings, for Lean's lexicographic order on bytes. -/
def Op.onStrings : Op → Bytes → Bytes → Prop
  | .eq, s, r => s = r
  | .ne, s, r => s ≠ r
  | .lt, s, r => s < r
  | .le, s, r => s < r ∨ s = r
  | .gt, s, r => r < s
  | .ge, s, r => r < s ∨ s = r
  | .like, s, r => Matches r s
  | .unlike, s, r => ¬ Matches r s

/-- The same with the patterns of the code, in which `\?` matches any byte. -/
def Op.onTexts : Op → Bytes → Bytes → Prop
  | .like, s, r => MatchesE (fun c d => c = d ∨ c = c! '?') r s
  | .unlike, s, r => ¬ MatchesE (fun c d => c = d ∨ c = c! '?') r s
  | op, s, r => op.onStrings s r

/-- The comparison operators in terms of "less", "equal" and "greater". -/
def Op.holds : Op → (lt eq gt : Bool) → Bool
  | .eq, _, e, _ => e
  | .ne, _, e, _ => !e
  | .lt, l, _, _ => l
  | .le, l, e, _ => l || e
  | .gt, _, _, g => g
  | .ge, _, e, g => g || e
  | .like, _, _, _ => false
  | .unlike, _, _, _ => false

/-- What the code decides for a boolean and the text `r` on the right. For `true` and
`false` this is the order `false < true`, but for `true <= true` and `false >= false`. -/
def Op.onBool (op : Op) (x : Bool) (r : Bytes) : Bool :=
  match op, x with
  | .eq, x => decide (r = boolText x)
  | .ne, x => decide (r ≠ boolText x)
  | .gt, true => decide (r = b!"false")
  | .ge, true => true
  | .lt, false => decide (r = b!"true")
  | .le, false => true
  | _, _ => false

/-- What the right hand side of a query stands for: a string literal for its content
(but the empty literal for its two quotes), anything else for itself. -/
inductive Stands : Bytes → Bytes → Prop
  | plain {r : Bytes} : (∀ c ∈ r.head?, c ≠ c! '"') → Stands r r
  | quoted {l s : Bytes} : l ≠ b!"\"\"" → Content l s → Stands l s
  | empty : Stands b!"\"\"" b!"\"\""

/-- `Compared op rh x b`: `b` is the answer of a query with the operator `op` and the
right hand side `rh` for the value with the text `x`. -/
inductive Compared : Option Op → Bytes → Bytes → Bool → Prop
  /-- without an operator: is there a value? -/
  | exists {x : Bytes} : Compared none [] x (decide (x ≠ []))
  | missing {op : Op} {rh r : Bytes} : Stands rh r → (∀ c ∈ r.head?, c ≠ c! '~') → Compared (some op) rh [] false
  | string {op : Op} {rh r x s : Bytes} {b : Bool} : Stands rh r → (∀ c ∈ r.head?, c ≠ c! '~') → Content x s →
      (b = true ↔ op.onTexts s r) → Compared (some op) rh x b
  | number {op : Op} {rh r x : Bytes} {y z : F64} {lt eq gt : Bool} : Stands rh r → (∀ c ∈ r.head?, c ≠ c! '~') →
      NumLit x → FloatOf x y → FloatOf r z → (lt = true ↔ F64.Below y z) → (eq = true ↔ F64.Equal y z) →
      (gt = true ↔ F64.Below z y) → Compared (some op) rh x (op.holds lt eq gt)
  | bool {op : Op} {rh r : Bytes} (x : Bool) : Stands rh r → (∀ c ∈ r.head?, c ≠ c! '~') →
      Compared (some op) rh (boolText x) (op.onBool x r)
  | other {op : Op} {rh r x : Bytes} : Stands rh r → (∀ c ∈ r.head?, c ≠ c! '~') → x ≠ [] → NoScalar x → Compared (some op) rh x false
  /-- `~` compares the truth value -/
  | truth {op : Op} {rh r x : Bytes} {t : Bool} : Stands rh (c! '~' :: r) → Truth x t → Compared (some op) rh x (op.onBool t r)

end Gjson.Spec
