import Verif.SpecDoc
/-
How deep values are nested in one another.
-/
namespace Gjson.Spec

mutual
/-- The greatest number of values of a document that lie one inside the other; a scalar and
an empty array count one. -/
def Doc.levels : Doc → Nat
  | .leaf _ => 1
  | .arr es => elemLevels es + 1
  | .obj ms => memLevels ms + 1
/-- The greatest number among the elements. -/
def elemLevels : List Doc → Nat
  | [] => 0
  | d :: r => max d.levels (elemLevels r)
/-- The greatest number among the members. -/
def memLevels : List (Bytes × Doc) → Nat
  | [] => 0
  | (_, d) :: r => max d.levels (memLevels r)
end

mutual
/-- The greatest number of arrays of a document that lie directly one inside the other,
the document itself the outermost. -/
def Doc.arrays : Doc → Nat
  | .leaf _ => 0
  | .arr es => elemArrays es + 1
  | .obj _ => 0
/-- The greatest number among the elements. -/
def elemArrays : List Doc → Nat
  | [] => 0
  | d :: r => max d.arrays (elemArrays r)
end

/-- How many opening brackets and braces a text has, also within strings. -/
def opens (t : Bytes) : Nat := t.countP fun c => c = c! '[' ∨ c = c! '{'

/-- `{"":{"":…{"":{}}…}}` with `m` members, one inside the other. -/
def unnamed : Nat → Bytes
  | 0 => b!"{}"
  | m + 1 => b!"{\"\":" ++ unnamed m ++ b!"}"

end Gjson.Spec
