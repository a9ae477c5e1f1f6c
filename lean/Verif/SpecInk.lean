import Verif.SpecWords
/-
Which bytes a result can be made of.
-/
namespace Gjson.Spec

/-- The bytes that are written without being in the text or the path: brackets, separators,
quotes, the line breaks and spaces of `@pretty`, the literal names (which `@pretty` writes
out), digits (of the number of elements), escapes in the keys of multipaths, and the name
`_`. -/
def ink : Bytes := b!"{}[],:\" \n_\\truefalsn0123456789ABCDEFb"

/-- Those of them that `pretty` writes. -/
def prettyInk : Bytes := b!"{}[],: \ntruefalsn"

/-- The path has a `@pretty` with an argument in which the word `w` is. -/
def PrettyWith (w path : Bytes) : Prop := InOrder [[b!"@pretty:"], [w]] path

instance (w path : Bytes) : Decidable (PrettyWith w path) := by unfold PrettyWith; infer_instance

end Gjson.Spec
