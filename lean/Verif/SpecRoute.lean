import Verif.SpecPath
/-
Paths for which the rules of `Spec.Means` give a result in every JSON text.
-/
namespace Gjson.Spec

/-- A right hand side that starts with a quote is a string literal. -/
def Right (rh : Bytes) : Prop := (∀ c ∈ rh.head?, c ≠ c! '"') ∨ StrLit rh

mutual
/-- A component. Options that make a modifier write something else than JSON are left out. -/
inductive Leg : Bytes → Prop
  | selector {k : Bytes} : Selector k → Leg k
  | hash : Leg b!"#"
  | first {q lh rh : Bytes} {op : Option Op} : QueryText q lh op rh → (lh ≠ [] → Route lh) → Right rh → Leg (b!"#(" ++ (q ++ b!")"))
  | all {q lh rh : Bytes} {op : Option Op} : QueryText q lh op rh → (lh ≠ [] → Route lh) → Right rh → Leg (b!"#(" ++ (q ++ b!")#"))
  | call {n a m : Bytes} : ModCall n a m → n ∉ [b!"pretty", b!"flatten", b!"join"] → Leg m
  | flatten {a m x : Bytes} : ModCall b!"flatten" a m → Means a b!"deep" x → Truth x true → Leg m
  | join {a m x : Bytes} : ModCall b!"join" a m → Means a b!"preserve" x → Truth x false → Leg m
  | pretty {a m xi xp xs xw indent pfx : Bytes} {sort : Bool} {n width : Nat} : ModCall b!"pretty" a m →
      Means a b!"indent" xi → (xi = [] ∧ indent = b!"  " ∨ xi ≠ [] ∧ StrVal xi indent) → Ws indent →
      Means a b!"prefix" xp → StrVal xp pfx → Ws pfx → Means a b!"sortKeys" xs → Truth xs sort →
      Means a b!"width" xw → (xw = [] ∧ width = 80 ∨ xw ≠ [] ∧ UnsignedVal xw n ∧ width = min n (2 ^ 32 - 1)) → Leg m
  | array {ts : List Bytes} {es : List (Bytes × Bytes)} : Aligned (fun t e => Entry t e.1 e.2) ts es → ts ≠ [] →
      (∀ e ∈ es, Route e.2) → Leg (c! '[' :: (commaSep ts ++ [c! ']']))
  | object {ts : List Bytes} {es : List (Bytes × Bytes)} : Aligned (fun t e => Entry t e.1 e.2) ts es → ts ≠ [] →
      (∀ e ∈ es, Route e.2) → Leg (c! '{' :: (commaSep ts ++ [c! '}']))
/-- Components joined by dots and pipes. -/
inductive Route : Bytes → Prop
  | last {k : Bytes} : Leg k → Route k
  | more {k rest : Bytes} {c : UInt8} : Leg k → c = c! '.' ∨ c = c! '|' → Route rest → Route (k ++ c :: rest)
end

/-- `HasHeight n v`: arrays and objects in the JSON value `v` are nested at most `n` deep. -/
def HasHeight (n : Nat) (v : Bytes) : Prop := ∃ d, Denotes v d ∧ d.height ≤ n

/-- A JSON value in which arrays and objects are nested at most `n` deep; if it is an
array or object itself, whitespace may follow. Or nothing. -/
def SizedVal (n : Nat) (r : Bytes) : Prop :=
  r = [] ∨ ∃ v w, r = v ++ w ∧ HasHeight n v ∧ Ws w ∧ (w = [] ∨ kindOf v = .object ∨ kindOf v = .array)

/-- A JSON text in which arrays and objects are nested at most `n` deep, or nothing. -/
def SizedText (n : Nat) (doc : Bytes) : Prop := doc = [] ∨ ∃ v, Padded v doc ∧ HasHeight n v

end Gjson.Spec
