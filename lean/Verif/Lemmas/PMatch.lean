import Verif.Model.Util
import Verif.Lemmas.At
/-
`pmatch` as a total function on patterns and strings.
-/
namespace Gjson

/-- `pmatch` without fuel. -/
def pm (p s : Bytes) : Bool :=
  match p with
  | [] => decide (s = [])
  | p0 :: rest =>
    if p0 = c! '\\' then
      match rest, s with
      | [], _ => false
      | _ :: _, [] => false
      | p1 :: rest', s0 :: sr => decide (p1 = c! '?' ∨ s0 = p1) && pm rest' sr
    else if p0 = c! '*' then
      match rest with
      | [] => true
      | p1 :: rest' =>
        if p1 = c! '*' then pm (p1 :: rest') s
        else pm (p1 :: rest') s ||
          match s with
          | [] => false
          | _ :: sr => pm (p0 :: p1 :: rest') sr
    else
      match s with
      | [] => false
      | s0 :: sr => decide (p0 = c! '?' ∨ s0 = p0) && pm rest sr
termination_by p.length + s.length

theorem pmatchN_eq : ∀ (n : Nat) (p s : Bytes), p.length + s.length < n → pmatchN n p s = .ok (pm p s) := by
  intro n
  induction n with
  | zero => intro p s h; omega
  | succ n ih =>
    intro p s h
    unfold pmatchN
    conv => { rhs; rw [pm.eq_def] }
    cases p with
    | nil => simp
    | cons p0 rest =>
      simp only
      have step : ∀ (q0 s0 : UInt8) (r sr : Bytes), r.length + sr.length < n →
          (if q0 ≠ c! '?' ∧ s0 ≠ q0 then (.ok false : Res Bool) else pmatchN n r sr) =
          .ok (decide (q0 = c! '?' ∨ s0 = q0) && pm r sr) := by
        intro q0 s0 r sr hr
        by_cases hq : q0 = c! '?' ∨ s0 = q0
        · rw [if_neg (by grind), ih r sr hr]
          simp [hq]
        · rw [if_pos (by grind)]
          simp [hq]
      simp only [List.length_cons] at h
      by_cases h1 : p0 = c! '\\'
      · rw [if_pos h1, if_pos h1]
        cases rest with
        | nil => rfl
        | cons p1 rest' =>
          cases s with
          | nil => rfl
          | cons s0 sr => exact step p1 s0 rest' sr (by simp at h; omega)
      · rw [if_neg h1, if_neg h1]
        by_cases h2 : p0 = c! '*'
        · rw [if_pos h2, if_pos h2]
          cases rest with
          | nil => rfl
          | cons p1 rest' =>
            simp only
            by_cases h3 : p1 = c! '*'
            · rw [if_pos h3, if_pos h3, ih _ _ (by simp at h ⊢; omega)]
            · rw [if_neg h3, if_neg h3, ih _ _ (by simp at h ⊢; omega)]
              simp only [ok_bind]
              cases hp : pm (p1 :: rest') s with
              | true => simp
              | false =>
                cases s with
                | nil => simp
                | cons s0 sr =>
                  simp only [Bool.false_eq_true, if_false, Bool.false_or]
                  exact ih _ _ (by simp at h ⊢; omega)
        · rw [if_neg h2, if_neg h2]
          cases s with
          | nil => rfl
          | cons s0 sr => exact step p0 s0 rest sr (by simp at h; omega)

theorem pmatch_eq (p s : Bytes) : pmatch p s = .ok (pm p s) := pmatchN_eq _ _ _ (by omega)

end Gjson
