import Verif.Spec
/-
The grammar of multipaths: `[p1,p2,...]` and `{k1:p1,p2,...}`.
-/
namespace Gjson.Spec

/-- A quoted part outside brackets: nothing in it has a meaning. -/
def PlainQuoted (b : Bytes) : Prop := ∀ c ∈ b, c ∉ bracketSpecial ∧ c ≠ c! ',' ∧ c ≠ c! ':'

/-- A sub path of a multipath: outside brackets there is no comma or colon, except
after a backslash, and quotes come in pairs with plain text between. -/
inductive SubPath : Bytes → Prop
  | nil : SubPath []
  | plain {c : UInt8} {r : Bytes} : c ∉ bracketSpecial → c ≠ c! ',' → c ≠ c! ':' → SubPath r → SubPath (c :: r)
  | esc {e : UInt8} {r : Bytes} : SubPath r → SubPath (c! '\\' :: e :: r)
  | str {b r : Bytes} : PlainQuoted b → SubPath r → SubPath (c! '"' :: (b ++ c! '"' :: r))
  | group {o c : UInt8} {b r : Bytes} : o ∈ b!"([{" → c ∈ b!")]}" → Balanced b → SubPath r → SubPath (o :: (b ++ c :: r))

/-- The name in front of a sub path: like a sub path, but colons are allowed. -/
inductive SubName : Bytes → Prop
  | nil : SubName []
  | plain {c : UInt8} {r : Bytes} : c ∉ bracketSpecial → c ≠ c! ',' → SubName r → SubName (c :: r)
  | esc {e : UInt8} {r : Bytes} : SubName r → SubName (c! '\\' :: e :: r)
  | str {b r : Bytes} : PlainQuoted b → SubName r → SubName (c! '"' :: (b ++ c! '"' :: r))
  | group {o c : UInt8} {b r : Bytes} : o ∈ b!"([{" → c ∈ b!")]}" → Balanced b → SubName r → SubName (o :: (b ++ c :: r))

/-- A name that can stand as a key without being written. -/
def SimpleName (k : Bytes) : Prop := ∀ c ∈ k, ¬ c < 0x20 ∧ c ∉ b!"[]{}()#|"

/-- No separator but right after a backslash. -/
def LastPart (k : Bytes) : Prop :=
  ∀ a s r, k = a ++ s :: r → (s = c! '.' ∨ s = c! '|') → a.getLast? = some (c! '\\')

/-- `LastName p k`: `k` is what follows the last separator of the path `p`, where a
separator after a backslash does not count. -/
inductive LastName : Bytes → Bytes → Prop
  | whole {k : Bytes} : LastPart k → LastName k k
  | after {a k : Bytes} {s : UInt8} : (s = c! '.' ∨ s = c! '|') → a.getLast? ≠ some (c! '\\') → LastPart k →
      LastName (a ++ s :: k) k

/-- One entry of a multipath with its key and sub path. -/
inductive Entry : Bytes → Bytes → Bytes → Prop
  | named {k p : Bytes} : SubName k → SubPath p → Entry (k ++ c! ':' :: p) k p
  | last {p k : Bytes} : SubPath p → LastName p k → SimpleName k → Entry p k p
  | other {p k : Bytes} : SubPath p → LastName p k → ¬ SimpleName k → Entry p b!"_" p

/-- The object text with the given key literals and value texts. -/
def objectText (kvs : List (Bytes × Bytes)) : Bytes := c! '{' :: (commaSep (kvs.map fun kv => kv.1 ++ c! ':' :: kv.2) ++ [c! '}'])

/-- A component of a path: a key, pattern or index, `#`, a query, a modifier call, or
a multipath. -/
inductive Part : Bytes → Prop
  | selector {k : Bytes} : Selector k → Part k
  | hash : Part b!"#"
  | first {q lh rh : Bytes} {op : Option Op} : QueryText q lh op rh → Part (b!"#(" ++ (q ++ b!")"))
  | all {q lh rh : Bytes} {op : Option Op} : QueryText q lh op rh → Part (b!"#(" ++ (q ++ b!")#"))
  | call {n a m : Bytes} : ModCall n a m → Part m
  | array {b : Bytes} : Balanced b → Part (c! '[' :: (b ++ b!"]"))
  | object {b : Bytes} : Balanced b → Part (c! '{' :: (b ++ b!"}"))

end Gjson.Spec
