import Verif.Spec
/-
How a path is cut after its first component: a rule for every sequence of bytes.
-/
namespace Gjson.Spec

/-- Bytes of a component in front of the bytes in `stop`, whether there is a backslash
and whether there is a wildcard. What follows a backslash has no meaning. -/
inductive CompOf (stop : Bytes) : Bytes → Bool → Bool → Prop
  | nil : CompOf stop [] false false
  | esc {c : UInt8} {r : Bytes} {e w : Bool} : CompOf stop r e w → CompOf stop (c! '\\' :: c :: r) true w
  | wild {c : UInt8} {r : Bytes} {e w : Bool} : c ∈ b!"*?" → CompOf stop r e w → CompOf stop (c :: r) e true
  | plain {c : UInt8} {r : Bytes} {e w : Bool} : c ∉ b!"\\*?" → c ∉ stop → CompOf stop r e w → CompOf stop (c :: r) e w

/-- What follows a component: nothing (written as separator 0), or a separator and the rest. -/
inductive AfterComp : Bytes → UInt8 → Bytes → Prop
  | nothing : AfterComp [] 0 []
  | sep {c : UInt8} {r : Bytes} : c ∈ b!".|" → AfterComp (c :: r) c r

/-- A bracket with all up to the bracket that closes it; the kinds of brackets need not agree. -/
def Bracketed (g : Bytes) : Prop := ∃ o b c, o ∈ b!"([{" ∧ c ∈ b!")]}" ∧ Balanced b ∧ g = o :: (b ++ [c])

/-- A string with its quotes. -/
def InQuotes (g : Bytes) : Prop := ∃ b, QuotedBody b ∧ g = c! '"' :: (b ++ [c! '"'])

/-- The bracket or quote in front is never closed. -/
def NeverClosed (s : Bytes) : Prop := ∀ g r, s = g ++ r → ¬ Bracketed g ∧ ¬ InQuotes g

/-- The parts of a path: the first component, whether it has a backslash, whether it has a
wildcard, the separator behind it (0 if none), where the argument of a modifier starts (0 if
it has none), and the rest. -/
structure Parts where
  comp : Bytes
  esc : Bool
  wild : Bool
  sep : UInt8
  arg : Nat
  rest : Bytes

/-- How a path is cut. -/
inductive CutUp : Bytes → Parts → Prop
  /-- A key, an index or a pattern goes up to the first separator that is not escaped. -/
  | key {k t rest : Bytes} {e w : Bool} {sep : UInt8} : CompOf b!".|" k e w → (∀ c ∈ k.head?, c ∉ b!"@#{[") → AfterComp t sep rest →
      CutUp (k ++ t) ⟨k, e, w, sep, 0, rest⟩
  /-- A backslash at the very end belongs to the component. -/
  | keyBackslash {k : Bytes} {e w : Bool} : CompOf b!".|" k e w → (∀ c ∈ k.head?, c ∉ b!"@#{[") →
      CutUp (k ++ [c! '\\']) ⟨k ++ [c! '\\'], true, w, 0, 0, []⟩
  /-- `#` alone. -/
  | count {t rest : Bytes} {sep : UInt8} : AfterComp t sep rest → CutUp (c! '#' :: t) ⟨b!"#", false, false, sep, 0, rest⟩
  /-- `#(…)` and `#(…)#`. -/
  | query {b h t rest : Bytes} {sep : UInt8} : Balanced b → h = [] ∨ h = b!"#" → AfterComp t sep rest →
      CutUp (b!"#(" ++ b ++ b!")" ++ h ++ t) ⟨b!"#(" ++ b ++ b!")" ++ h, false, false, sep, 0, rest⟩
  /-- A query that is never closed but ends with `)` or `)#` all the same. -/
  | queryOpen {s h : Bytes} : NeverClosed (b!"(" ++ s ++ b!")" ++ h) → h = [] ∨ h = b!"#" →
      CutUp (b!"#(" ++ s ++ b!")" ++ h) ⟨b!"#(" ++ s ++ b!")" ++ h, false, false, 0, 0, []⟩
  /-- Anything else in front of which there is a `#` counts as the empty path: something other
  than a bracket behind it, -/
  | badHash {c : UInt8} {r : Bytes} : c ∉ b!".|(" → CutUp (c! '#' :: c :: r) ⟨[], false, false, 0, 0, []⟩
  /-- a query closed by a bracket of another kind, -/
  | badClose {b r : Bytes} {c : UInt8} : Balanced b → c ∈ b!"]}" → CutUp (b!"#(" ++ b ++ c :: r) ⟨[], false, false, 0, 0, []⟩
  /-- something other than a separator behind a query, -/
  | badAfter {b h r : Bytes} {d : UInt8} : Balanced b → h = [] ∧ d ∉ b!".|#" ∨ h = b!"#" ∧ d ∉ b!".|" →
      CutUp (b!"#(" ++ b ++ b!")" ++ h ++ d :: r) ⟨[], false, false, 0, 0, []⟩
  /-- a query that is never closed. -/
  | badOpen {s : Bytes} : NeverClosed (c! '(' :: s) → (∀ s', s ≠ s' ++ b!")" ∧ s ≠ s' ++ b!")#") →
      CutUp (c! '#' :: c! '(' :: s) ⟨[], false, false, 0, 0, []⟩
  /-- A multipath. -/
  | multi {g t rest : Bytes} {sep : UInt8} : Bracketed g → (∀ c ∈ g.head?, c ∈ b!"[{") → AfterComp t sep rest →
      CutUp (g ++ t) ⟨g, false, false, sep, 0, rest⟩
  /-- What stands behind a multipath without a separator is lost. -/
  | multiMore {g r : Bytes} {d : UInt8} : Bracketed g → (∀ c ∈ g.head?, c ∈ b!"[{") → d ∉ b!".|" →
      CutUp (g ++ d :: r) ⟨g, false, false, 0, 0, []⟩
  /-- A multipath that is never closed is all there is. -/
  | multiOpen {s : Bytes} {o : UInt8} : o ∈ b!"[{" → NeverClosed (o :: s) → CutUp (o :: s) ⟨o :: s, false, false, 0, 0, []⟩
  /-- A modifier without an argument. -/
  | modifier {k t rest : Bytes} {e w : Bool} {sep : UInt8} : CompOf b!".|:" (c! '@' :: k) e w → AfterComp t sep rest →
      CutUp (c! '@' :: (k ++ t)) ⟨c! '@' :: k, e, w, sep, 0, rest⟩
  /-- The same with a backslash at the end. -/
  | modifierBackslash {k : Bytes} {e w : Bool} : CompOf b!".|:" (c! '@' :: k) e w →
      CutUp (c! '@' :: (k ++ [c! '\\'])) ⟨c! '@' :: (k ++ [c! '\\']), true, w, 0, 0, []⟩
  /-- A modifier with a plain argument, which goes up to the next separator. -/
  | argument {k a t rest : Bytes} {e w : Bool} {sep : UInt8} : CompOf b!".|:" (c! '@' :: k) e w → (∀ c ∈ a, c ∉ b!".|") →
      (∀ c ∈ a.head?, c ∉ b!"{[\"") → AfterComp t sep rest →
      CutUp (c! '@' :: (k ++ c! ':' :: (a ++ t))) ⟨c! '@' :: (k ++ c! ':' :: a), e, w, sep, k.length + 1, rest⟩
  /-- A modifier with an argument in brackets or quotes. -/
  | argumentJson {k g t rest : Bytes} {e w : Bool} {sep : UInt8} : CompOf b!".|:" (c! '@' :: k) e w → Bracketed g ∨ InQuotes g →
      (∀ c ∈ g.head?, c ∈ b!"{[\"") → AfterComp t sep rest →
      CutUp (c! '@' :: (k ++ c! ':' :: (g ++ t))) ⟨c! '@' :: (k ++ c! ':' :: g), e, w, sep, k.length + 1, rest⟩
  /-- What stands behind such an argument without a separator still belongs to it. -/
  | argumentMore {k g r : Bytes} {e w : Bool} {d : UInt8} : CompOf b!".|:" (c! '@' :: k) e w → Bracketed g ∨ InQuotes g →
      (∀ c ∈ g.head?, c ∈ b!"{[\"") → d ∉ b!".|" →
      CutUp (c! '@' :: (k ++ c! ':' :: (g ++ d :: r))) ⟨c! '@' :: (k ++ c! ':' :: (g ++ d :: r)), e, w, 0, k.length + 1, d :: r⟩
  /-- An argument that is never closed goes up to the end. -/
  | argumentOpen {k s : Bytes} {e w : Bool} {o : UInt8} : CompOf b!".|:" (c! '@' :: k) e w → o ∈ b!"{[\"" → NeverClosed (o :: s) →
      CutUp (c! '@' :: (k ++ c! ':' :: o :: s)) ⟨c! '@' :: (k ++ c! ':' :: o :: s), e, w, 0, k.length + 1, []⟩

/-! ### Queries -/

/-- `t` is `s` without the blanks around it. -/
def TrimOf (s t : Bytes) : Prop := ∃ w1 w2, s = w1 ++ (t ++ w2) ∧ Blank w1 ∧ Blank w2 ∧ Trimmed t

/-- The text starts with an operator, here as long as it can be; what follows it. -/
inductive StartsOp : Bytes → Bytes → Bytes → Prop
  | percent {r : Bytes} : StartsOp (c! '%' :: r) b!"%" r
  | compareEq {c : UInt8} {r : Bytes} : c ∈ b!"=<>" → StartsOp (c :: c! '=' :: r) [c, c! '='] r
  | compare {c : UInt8} {r : Bytes} : c ∈ b!"=<>" → (∀ d ∈ r.head?, d ≠ c! '=') → StartsOp (c :: r) [c] r
  | notTwo {d : UInt8} {r : Bytes} : d ∈ b!"=%" → StartsOp (c! '!' :: d :: r) [c! '!', d] r
  | notOne {r : Bytes} : (∀ d ∈ r.head?, d ∉ b!"=%") → StartsOp (c! '!' :: r) b!"!" r

/-- A text cut at its first operator: what is in front, the operator (empty if there is none)
and what follows. Operators count neither after a backslash nor where more parentheses have
been opened than closed, `d` in all. -/
inductive CutAtOp : Int → Bytes → Bytes → Bytes → Bytes → Prop
  | none {d : Int} : CutAtOp d [] [] [] []
  | backslash {d : Int} : CutAtOp d [c! '\\'] [c! '\\'] [] []
  | esc {d : Int} {c : UInt8} {s l o r : Bytes} : CutAtOp d s l o r → CutAtOp d (c! '\\' :: c :: s) (c! '\\' :: c :: l) o r
  | opened {d : Int} {s l o r : Bytes} : CutAtOp (d + 1) s l o r → CutAtOp d (c! '(' :: s) (c! '(' :: l) o r
  | closed {d : Int} {s l o r : Bytes} : CutAtOp (d - 1) s l o r → CutAtOp d (c! ')' :: s) (c! ')' :: l) o r
  | inside {d : Int} {c : UInt8} {s l o r : Bytes} : 0 < d → c ∉ b!"\\()" → CutAtOp d s l o r → CutAtOp d (c :: s) (c :: l) o r
  | other {d : Int} {c : UInt8} {s l o r : Bytes} : d ≤ 0 → c ∉ b!"\\()=<>!%" → CutAtOp d s l o r → CutAtOp d (c :: s) (c :: l) o r
  | op {d : Int} {s o r : Bytes} : d ≤ 0 → StartsOp s o r → CutAtOp d s [] o r

/-- The parts of a component as a query: left side, operator and right side without blanks
around them, where `==` is `=`. All are empty unless the component is `#(…)` or `#(…)#`. -/
inductive QueryCut : Bytes → Bytes → Bytes → Bytes → Prop
  | query {q h s l o r lh rh : Bytes} : h = [] ∨ h = b!"#" → TrimOf q s → CutAtOp 0 s l o r → TrimOf l lh → TrimOf r rh →
      QueryCut (b!"#(" ++ q ++ b!")" ++ h) lh (if o = b!"==" then b!"=" else o) rh
  | none {k : Bytes} : (∀ q, k ≠ b!"#(" ++ q ++ b!")" ∧ k ≠ b!"#(" ++ q ++ b!")#") → QueryCut k [] [] []

/-! ### The part of a path that is asked of every element -/

/-- Components up to the first pipe or the end, with the dots between them; the separator
behind them (0 if none) and the rest. -/
inductive GroupOf : Bytes → Bytes → UInt8 → Bytes → Prop
  | last {s k rest : Bytes} {e w : Bool} {sep : UInt8} {m : Nat} : CutUp s ⟨k, e, w, sep, m, rest⟩ → sep ≠ c! '.' → GroupOf s k sep rest
  | more {s k rest g r : Bytes} {e w : Bool} {sep : UInt8} {m : Nat} : CutUp s ⟨k, e, w, c! '.', m, rest⟩ → GroupOf rest g sep r →
      GroupOf s (k ++ c! '.' :: g) sep r

end Gjson.Spec
