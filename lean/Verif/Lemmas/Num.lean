import Verif.Model.Value
import Verif.Spec
import Verif.Lemmas.At
/-
Decimal numerals.
-/
namespace Gjson
open Spec

theorem digitChar_byte : ∀ d : Fin 10, UInt8.ofNat (Nat.digitChar d.val).toNat = UInt8.ofNat (48 + d.val) := by
  decide

theorem natDigits_eq : ∀ (fuel n : Nat), n < fuel → natDigits fuel n = numeral n
  | 0, _, h => by omega
  | fuel + 1, n, h => by
    unfold natDigits numeral
    rw [Nat.toDigits_eq_if (by decide)]
    split
    · rename_i h1
      have := digitChar_byte ⟨n, h1⟩
      simpa using this.symm
    · have := digitChar_byte ⟨n % 10, Nat.mod_lt _ (by decide)⟩
      rw [natDigits_eq fuel (n / 10) (by omega)]
      simp only [List.map_append, List.map_cons, List.map_nil, numeral]
      rw [← this]

theorem natDec_eq (n : Nat) : natDec n = numeral n := natDigits_eq _ _ (by omega)

theorem intDec_eq (n : Int) : intDec n = intNumeral n := by
  unfold intDec intNumeral; simp only [natDec_eq]

theorem digit_facts : ∀ d : Fin 10, IsDigit (UInt8.ofNat (48 + d.val)) ∧
    (UInt8.ofNat (48 + d.val)).toNat - 48 = d.val ∧ (UInt8.ofNat (48 + d.val) = c! '0' → d.val = 0) := by decide

theorem decVal_append (a : Bytes) (c : UInt8) : decVal (a ++ [c]) = decVal a * 10 + (c.toNat - 48) := by
  simp [decVal]

/-- Numerals are strings of digits with the right value. -/
theorem numeral_spec (n : Nat) : numeral n ≠ [] ∧ (∀ c ∈ numeral n, IsDigit c) ∧ decVal (numeral n) = n ∧
    IntPart (numeral n) := by
  induction n using Nat.strongRecOn with
  | ind n ih =>
    unfold numeral
    rw [Nat.toDigits_eq_if (by decide)]
    split
    · rename_i h
      have e := digitChar_byte ⟨n, h⟩
      have f := digit_facts ⟨n, h⟩
      simp only [List.map_cons, List.map_nil] at e ⊢
      rw [e]
      refine ⟨by simp, by simpa using f.1, by simpa [decVal] using f.2.1, ?_⟩
      by_cases h0 : n = 0
      · left; subst h0; rfl
      · exact .inr ⟨_, [], rfl, f.1, fun x => h0 (f.2.2 x), by simp⟩
    · rename_i h
      have e := digitChar_byte ⟨n % 10, Nat.mod_lt _ (by decide)⟩
      have f := digit_facts ⟨n % 10, Nat.mod_lt _ (by decide)⟩
      obtain ⟨h1, h2, h3, h4⟩ := ih (n / 10) (by omega)
      unfold numeral at h1 h2 h3 h4
      simp only [List.map_append, List.map_cons, List.map_nil] at e ⊢
      rw [e]
      refine ⟨by simp, ?_, ?_, ?_⟩
      · intro c hc
        simp only [List.mem_append, List.mem_singleton] at hc
        rcases hc with hc | rfl
        · exact h2 c hc
        · exact f.1
      · rw [decVal_append, h3, f.2.1]; simp only; omega
      · right
        rcases h4 with h4 | ⟨d, ds, h4, h5, h6, h7⟩
        · rw [h4] at h3
          have : decVal [c! '0'] = 0 := by decide
          omega
        · rw [h4]
          refine ⟨d, ds ++ [_], rfl, h5, h6, ?_⟩
          intro c hc
          simp only [List.mem_append, List.mem_singleton] at hc
          rcases hc with hc | rfl
          · exact h7 c hc
          · exact f.1

theorem isDigit_iff (c : UInt8) : isDigit c = true ↔ IsDigit c := by
  unfold isDigit IsDigit; simp

theorem decDigits_eq {ds : Bytes} (h : ∀ c ∈ ds, IsDigit c) :
    ∀ a, decDigits a ds = some (ds.foldl (fun a c => a * 10 + (c.toNat - 0x30)) a) := by
  induction ds with
  | nil => intro a; rfl
  | cons c ds ih =>
    intro a
    rw [decDigits, if_pos ((isDigit_iff c).2 (h c (by simp))), ih (fun x hx => h x (by simp [hx]))]
    rfl

theorem parseNat_eq {ds : Bytes} (h0 : ds ≠ []) (h : ∀ c ∈ ds, IsDigit c) : parseNat ds = some (decVal ds) := by
  unfold parseNat; rw [if_neg h0, decDigits_eq h]; rfl

theorem digit_not_sign {c : UInt8} (h : IsDigit c) : c ≠ c! '-' ∧ c ≠ c! '+' := by
  unfold IsDigit at h; grind

theorem parseI64_pos {ds : Bytes} (h0 : ds ≠ []) (h : ∀ c ∈ ds, IsDigit c) (hr : decVal ds ≤ 9223372036854775807) :
    parseI64 ds = some (decVal ds : Int) := by
  cases ds with
  | nil => exact absurd rfl h0
  | cons c r =>
    have hc := digit_not_sign (h c (by simp))
    unfold parseI64
    simp only
    rw [if_neg hc.1, if_neg hc.2, parseNat_eq h0 h]
    simp only
    rw [if_pos hr]

theorem parseI64_neg {ds : Bytes} (h0 : ds ≠ []) (h : ∀ c ∈ ds, IsDigit c) (hr : decVal ds ≤ 9223372036854775808) :
    parseI64 (c! '-' :: ds) = some (-(decVal ds : Int)) := by
  unfold parseI64
  simp only
  rw [if_pos trivial, parseNat_eq h0 h]
  simp only
  rw [if_pos hr]

theorem parseU64_pos {ds : Bytes} (h0 : ds ≠ []) (h : ∀ c ∈ ds, IsDigit c) (hr : decVal ds ≤ 18446744073709551615) :
    parseU64 ds = some (decVal ds) := by
  cases ds with
  | nil => exact absurd rfl h0
  | cons c r =>
    have hc := digit_not_sign (h c (by simp))
    unfold parseU64
    simp only
    rw [if_neg hc.2, parseNat_eq h0 h]
    simp only
    rw [if_pos hr]

theorem parseI64_numeral {n : Int} (h1 : -9223372036854775808 ≤ n) (h2 : n ≤ 9223372036854775807) :
    parseI64 (intNumeral n) = some n := by
  obtain ⟨a1, a2, a3, _⟩ := numeral_spec n.natAbs
  unfold intNumeral
  split
  · rw [parseI64_neg a1 a2 (by omega), a3]; congr 1; omega
  · rw [parseI64_pos a1 a2 (by omega), a3]; congr 1; omega

theorem parseU64_numeral {n : Nat} (h2 : n ≤ 18446744073709551615) :
    parseU64 (numeral n) = some n := by
  obtain ⟨a1, a2, a3, _⟩ := numeral_spec n
  rw [parseU64_pos a1 a2 (by omega), a3]

theorem intNumeral_numLit (n : Int) : NumLit (intNumeral n) := by
  obtain ⟨_, _, _, h⟩ := numeral_spec n.natAbs
  unfold intNumeral
  split
  · exact ⟨[c! '-'], _, [], [], by simp, .inr rfl, h, .inl rfl, .inl rfl⟩
  · exact ⟨[], _, [], [], by simp, .inl rfl, h, .inl rfl, .inl rfl⟩

end Gjson
