import Verif.SpecDoc
/-
What is left of sorting when the printer stops at some depth.
-/
namespace Gjson.Spec

mutual
/-- Sorting that gives up at the first value nested deeper than `n`, in the order of the
text: objects finished before it are sorted; the objects around it, and everything after
it, stay as they are. -/
def Doc.sortLim : Nat → Doc → Doc
  | _, .leaf t => .leaf t
  | 0, .arr es => .arr es
  | 0, .obj ms => .obj ms
  | n + 1, .arr es => .arr (limElems n es)
  | n + 1, .obj ms => if memHeight ms ≤ n then .obj (sortMembers (sortVals ms)) else .obj (limVals n ms)
/-- The elements of an array, up to the first that is too deep. -/
def limElems : Nat → List Doc → List Doc
  | _, [] => []
  | n, d :: r => if d.height ≤ n then d.sort :: limElems n r else d.sortLim n :: r
/-- The members of an object, up to the first that is too deep. -/
def limVals : Nat → List (Bytes × Doc) → List (Bytes × Doc)
  | _, [] => []
  | n, (k, d) :: r => if d.height ≤ n then (k, d.sort) :: limVals n r else (k, d.sortLim n) :: r
end

end Gjson.Spec
