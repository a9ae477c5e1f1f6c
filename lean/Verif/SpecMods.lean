import Verif.Spec
/-
What `@flatten` and `@join` are meant to do, on lists of value texts.
-/
namespace Gjson.Spec

/-- The values `vs` with each array replaced by its elements. -/
inductive Flattened : List Bytes → List Bytes → Prop
  | nil : Flattened [] []
  | keep {v : Bytes} {r s : List Bytes} : kindOf v ≠ .array → Flattened r s → Flattened (v :: r) (v :: s)
  | splice {v : Bytes} {ws r s : List Bytes} : IsArray v ws → Flattened r s → Flattened (v :: r) (ws ++ s)

/-- The values `vs` with each array replaced by its elements, and so on for arrays
inside arrays. -/
inductive DeepFlattened : List Bytes → List Bytes → Prop
  | nil : DeepFlattened [] []
  | keep {v : Bytes} {r s : List Bytes} : kindOf v ≠ .array → DeepFlattened r s → DeepFlattened (v :: r) (v :: s)
  | splice {v : Bytes} {ws ls r s : List Bytes} : IsArray v ws → DeepFlattened ws ls → DeepFlattened r s →
      DeepFlattened (v :: r) (ls ++ s)

/-- `mss` are the members (key literal, value text) of the objects among `vs`. -/
inductive ObjectsOf : List Bytes → List (List (Bytes × Bytes)) → Prop
  | nil : ObjectsOf [] []
  | skip {v : Bytes} {r : List Bytes} {s : List (List (Bytes × Bytes))} : kindOf v ≠ .object → ObjectsOf r s → ObjectsOf (v :: r) s
  | take {v : Bytes} {ms : List (Bytes × Bytes)} {r : List Bytes} {s : List (List (Bytes × Bytes))} : IsObject v ms → ObjectsOf r s →
      ObjectsOf (v :: r) (ms :: s)

/-- Give the member with the same key content as `m` the value of `m`, or add `m` at
the end. -/
def putMember (dec : Bytes → Bytes) (m : Bytes × Bytes) : List (Bytes × Bytes) → List (Bytes × Bytes)
  | [] => [m]
  | n :: r => if dec n.1 = dec m.1 then (n.1, m.2) :: r else n :: putMember dec m r

/-- One member per key content. -/
def mergeMembers (dec : Bytes → Bytes) (ms : List (Bytes × Bytes)) : List (Bytes × Bytes) :=
  ms.foldl (fun acc m => putMember dec m acc) []

/-- The distinct elements of a list in the order in which they first appear. -/
def distinct (seen : List Bytes) : List Bytes → List Bytes
  | [] => []
  | k :: r => if k ∈ seen then distinct seen r else k :: distinct (k :: seen) r

/-- The text between the brackets of an array or object. -/
def inside (v : Bytes) : Bytes := (v.drop 1).dropLast

/-- The texts that `@flatten` puts between commas: values, and the insides of arrays. -/
def flatPieces (vs : List Bytes) : List Bytes :=
  (vs.map fun v => if kindOf v = .array then inside v else v).filter fun p => p ≠ []

/-- The texts that `@join` with `preserve` puts between commas. -/
def keptPieces (vs : List Bytes) : List Bytes := (vs.filter fun v => kindOf v = .object).map inside

end Gjson.Spec
