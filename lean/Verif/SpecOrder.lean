import Verif.SpecDoc
/-
Documents that differ only in the order of the members of objects.
-/
namespace Gjson.Spec

/-- The values of the members whose key has the name `k`, in source order. -/
def valuesOf (name : Bytes → Bytes) (k : Bytes) (ms : List (Bytes × Doc)) : List Doc :=
  (ms.filter fun m => name m.1 = k).map Prod.snd

/-- `SameMembers name d d'`: the documents are equal up to the order of the members of
objects. In both, an object has the same number of members for each name, and their values
correspond in source order. `name` says when two key literals are the same key: `id` if
they have to be written in the same way. -/
inductive SameMembers (name : Bytes → Bytes) : Doc → Doc → Prop
  | leaf {t : Bytes} : SameMembers name (.leaf t) (.leaf t)
  | arr {ps : List (Doc × Doc)} : (∀ p ∈ ps, SameMembers name p.1 p.2) →
      SameMembers name (.arr (ps.map Prod.fst)) (.arr (ps.map Prod.snd))
  | obj {ms ms' : List (Bytes × Doc)} {ps : Bytes → List (Doc × Doc)} : (∀ k, ∀ p ∈ ps k, SameMembers name p.1 p.2) →
      (∀ k, (ps k).map Prod.fst = valuesOf name k ms) → (∀ k, (ps k).map Prod.snd = valuesOf name k ms') →
      SameMembers name (.obj ms) (.obj ms')

/-- The documents of two JSON values are equal up to the order of members. -/
def SameText (name : Bytes → Bytes) (v v' : Bytes) : Prop := ∃ d d', Denotes v d ∧ Denotes v' d' ∧ SameMembers name d d'

/-- `Names k s`: the path component `k` has no wildcards, it stands for the key `s` alone.
A backslash makes the next byte stand for itself, except for a question mark. -/
inductive Names : Bytes → Bytes → Prop
  | nil : Names [] []
  | esc {c : UInt8} {p s : Bytes} : c ≠ c! '?' → Names p s → Names (c! '\\' :: c :: p) (c :: s)
  | plain {c : UInt8} {p s : Bytes} : c ≠ c! '*' → c ≠ c! '?' → c ≠ c! '\\' → Names p s → Names (c :: p) (c :: s)

end Gjson.Spec
