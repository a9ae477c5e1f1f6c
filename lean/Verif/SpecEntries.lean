import Verif.SpecCut
import Verif.SpecMulti
/-
How the text between the brackets of a multipath is cut into entries: a rule for every
sequence of bytes. And the name and the argument of a modifier.
-/
namespace Gjson.Spec

/-- Text in which the bytes in `stop` do not stand outside brackets, except after a backslash. A
bracket comes with all up to the one that closes it; quotes have no meaning outside brackets. -/
inductive Pieces (stop : Bytes) : Bytes → Prop
  | nil : Pieces stop []
  | esc {c : UInt8} {r : Bytes} : Pieces stop r → Pieces stop (c! '\\' :: c :: r)
  | group {g r : Bytes} : Bracketed g → Pieces stop r → Pieces stop (g ++ r)
  | plain {c : UInt8} {r : Bytes} : c ∉ b!"\\([{" → c ∉ stop → Pieces stop r → Pieces stop (c :: r)

/-- The same at the end of the text, where a bracket that is never closed takes all that follows. -/
inductive Ending (stop : Bytes) : Bytes → Prop
  | closed {p : Bytes} : Pieces stop p → Ending stop p
  | opened {p s : Bytes} {o : UInt8} : Pieces stop p → o ∈ b!"([{" → NeverClosed (o :: s) → Ending stop (p ++ o :: s)

/-- The key for a sub path without a name: its last part if that is a simple name, else `_`. -/
inductive KeyFor : Bytes → Bytes → Prop
  | last {p k : Bytes} : LastName p k → SimpleName k → KeyFor p k
  | other {p k : Bytes} : LastName p k → ¬ SimpleName k → KeyFor p b!"_"

/-- The keys and sub paths of the entries: they are separated by commas, and in each the last
colon separates the name, if any, from the sub path. -/
inductive EntriesOf : Bytes → List (Bytes × Bytes) → Prop
  | last {p k : Bytes} : Ending b!",:" p → KeyFor p k → EntriesOf p [(k, p)]
  | lastNamed {k p : Bytes} : Pieces b!"," k → Ending b!",:" p → EntriesOf (k ++ c! ':' :: p) [(k, p)]
  /-- An entry with a backslash at its very end is lost. -/
  | lost {p : Bytes} : Pieces b!"," p → EntriesOf (p ++ b!"\\") []
  | more {p k r : Bytes} {es : List (Bytes × Bytes)} : Pieces b!",:" p → KeyFor p k → EntriesOf r es →
      EntriesOf (p ++ c! ',' :: r) ((k, p) :: es)
  | moreNamed {k p r : Bytes} {es : List (Bytes × Bytes)} : Pieces b!"," k → Pieces b!",:" p → EntriesOf r es →
      EntriesOf (k ++ c! ':' :: (p ++ c! ',' :: r)) ((k, p) :: es)

/-- The name and the argument of the modifier in a component, given where the argument starts. -/
inductive CallOf : Bytes → Nat → Bytes → Bytes → Prop
  | bare {n : Bytes} : CallOf (c! '@' :: n) 0 n []
  | arg {n a : Bytes} : CallOf (c! '@' :: (n ++ c! ':' :: a)) (n.length + 1) n a

end Gjson.Spec
