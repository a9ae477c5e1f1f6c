import Verif.Props.Valid
/-
A way to show that a concrete text is a JSON value, by running `valid`.
-/
namespace Gjson
open Spec

/-- The text begins and ends with something other than whitespace. -/
def trimmed (v : Bytes) : Bool :=
  match v.head?, v.getLast? with
  | some a, some b => decide (c! ' ' < a) && decide (c! ' ' < b)
  | _, _ => false

theorem value_of_valid {v : Bytes} (h : valid v = .ok true) (ht : trimmed v = true) : IsValue v := by
  obtain ⟨w1, t, w2, rfl, h1, h2, hv⟩ := (C01_valid_iff_rfc8259 v).1 h
  have hws : ∀ c, IsWs c → ¬ c! ' ' < c := by intro c hc; unfold IsWs at hc; grind
  have e1 : w1 = [] := by
    cases w1 with
    | nil => rfl
    | cons a r =>
      unfold trimmed at ht
      split at ht
      · rename_i x y hx hy
        simp at hx
        subst hx
        simp at ht
        exact absurd ht.1 (hws _ (h1 _ (by simp)))
      · cases ht
  have e2 : w2 = [] := by
    rcases List.eq_nil_or_concat w2 with h | ⟨r, a, rfl⟩
    · exact h
    · unfold trimmed at ht
      split at ht
      · rename_i x y hx hy
        rw [List.concat_eq_append, ← List.append_assoc, ← List.append_assoc] at hy
        simp at hy
        subst hy
        simp at ht
        exact absurd ht.2 (hws _ (h2 _ (by simp)))
      · cases ht
  subst e1 e2
  simpa using hv

end Gjson
