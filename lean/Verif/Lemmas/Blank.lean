import Verif.Lemmas.Pipe
/-
The empty component of a path, and a pipe behind it.
-/
namespace Gjson
open Spec

/-- The same value, and the empty component with and without a pipe behind it. -/
def BlankTwin (b : Bytes) (x y : Value × Path) : Prop :=
  x.1 = y.1 ∧ x.2 = ⟨[], false, false, c! '|', 0, b⟩ ∧ y.2 = ⟨[], false, false, 0, 0, []⟩

theorem gStart_blank (b : Bytes) (L : Nat) : ∀ s, RelRes (BlankTwin b)
      (gStart get L ⟨[], false, false, c! '|', 0, b⟩ s) (gStart get L ⟨[], false, false, 0, 0, []⟩ s)
  | [] => .ok ⟨rfl, rfl, rfl⟩
  | c :: r => by
    unfold gStart
    split
    · exact gStart_blank b L r
    split
    · rename_i hc
      subst hc
      rw [gObj_cons, gObj_cons]
      refine gObjLoop_rel (R := BlankTwin b) (p1 := ⟨[], false, false, c! '|', 0, b⟩) (p2 := ⟨[], false, false, 0, 0, []⟩) L (fun s => rfl) rfl (fun v => ⟨rfl, rfl, rfl⟩) (fun x y h => h.1) ?_ r
      intro h; cases h
    split
    · unfold gArr
      exact .ok ⟨rfl, rfl, rfl⟩
    · exact .ok ⟨rfl, rfl, rfl⟩

theorem pNext_blank : pNext [] = ⟨[], false, false, 0, 0, []⟩ := by decide +kernel

theorem pNext_pipe (b : Bytes) : pNext (c! '|' :: b) = ⟨[], false, false, c! '|', 0, b⟩ :=
  pNext_comp (k := []) .nil (by decide) ⟨.inr rfl, rfl, rfl⟩

end Gjson
