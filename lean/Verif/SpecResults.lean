import Verif.Spec
/-
What the results of a search look like.
-/
namespace Gjson.Spec

/-- A value; if it is an object or an array, whitespace may follow. -/
def Lead (t : Bytes) : Prop :=
  IsValue t ∨ ∃ u w, t = u ++ w ∧ IsValue u ∧ Ws w ∧ (kindOf u = .object ∨ kindOf u = .array)

/-- The path has a `@pretty` with an argument in which a member `indent` or `prefix` may be:
the word in quotes, or a backslash (which may belong to an escape in that word). -/
def AsksText (path : Bytes) : Prop := InOrder [[b!"@pretty:"], [b!"\"indent\"", b!"\"prefix\"", b!"\\"]] path

/-- A path without the modifiers that need not keep JSON texts JSON texts: `@flatten` (C32),
`@join` (C33), and `@pretty` with text to insert. -/
def Tame (path : Bytes) : Prop := ¬ b!"@flatten" <:+: path ∧ ¬ b!"@join" <:+: path ∧ ¬ AsksText path

instance (path : Bytes) : Decidable (AsksText path) := by unfold AsksText; infer_instance

instance (path : Bytes) : Decidable (Tame path) := by unfold Tame; infer_instance

end Gjson.Spec
