import Verif.Lemmas.Num
import Verif.Lemmas.Order
/-
Integer numerals as floats, and the order of floats.
-/
namespace Gjson
open Spec

theorem spanDigits_all {ds : Bytes} (h : ∀ c ∈ ds, IsDigit c) : spanDigits ds = (ds, []) := by
  induction ds with
  | nil => rfl
  | cons c r ih =>
    rw [spanDigits, if_pos ((isDigit_iff c).2 (h c (by simp))), ih (fun x hx => h x (by simp [hx]))]

theorem digitsVal_eq (ds : Bytes) : digitsVal ds = decVal ds := by
  unfold digitsVal decVal
  rfl

theorem log2_mul_pow {n : Nat} (h : n ≠ 0) (k : Nat) : Nat.log2 (n * 2 ^ k) = Nat.log2 n + k := by
  induction k with
  | zero => simp
  | succ k ih =>
    rw [Nat.pow_succ, ← Nat.mul_assoc, Nat.mul_comm, Nat.log2_two_mul (by
      have := Nat.two_pow_pos k
      exact Nat.mul_ne_zero h (by omega)), ih]; omega

theorem round_exact {a b : Nat} (hb : 0 < b) : F64.roundHalfEven (a * b) b = a := by
  unfold F64.roundHalfEven
  simp [Nat.mul_div_cancel _ hb, hb]

theorem ofRat_nat {neg : Bool} {n : Nat} (h : n ≤ 2 ^ 53) : F64.ofRat neg n 1 = .fin neg (n * F64.unit) := by
  unfold F64.ofRat
  simp only [Nat.div_one, Nat.one_mul]
  have hk : F64.roundHalfEven (n * F64.unit) (2 ^ (Nat.log2 (n * F64.unit) - 52)) * 2 ^ (Nat.log2 (n * F64.unit) - 52) = n * F64.unit := by
    have hd : ∃ a, n * F64.unit = a * 2 ^ (Nat.log2 (n * F64.unit) - 52) := by
      by_cases h0 : n = 0
      · exact ⟨0, by simp [h0]⟩
      · unfold F64.unit
        rw [log2_mul_pow h0]
        by_cases h1 : n = 2 ^ 53
        · subst h1
          rw [Nat.log2_two_pow]
          exact ⟨2 ^ 52, by rw [← Nat.pow_add, ← Nat.pow_add]⟩
        · have : Nat.log2 n < 53 := (Nat.log2_lt h0).2 (by omega)
          refine ⟨n * 2 ^ (52 - Nat.log2 n), ?_⟩
          rw [Nat.mul_assoc, ← Nat.pow_add, show 52 - Nat.log2 n + (Nat.log2 n + 1074 - 52) = 1074 by omega]
    obtain ⟨a, ha⟩ := hd
    generalize 2 ^ (Nat.log2 (n * F64.unit) - 52) = u at ha ⊢
    rcases Nat.eq_zero_or_pos u with h0 | h0
    · subst h0; simp at ha; rw [ha]; simp
    · rw [ha, round_exact h0]
  rw [hk, if_pos]
  unfold F64.unit
  calc n * 2 ^ 1074 ≤ 2 ^ 53 * 2 ^ 1074 := Nat.mul_le_mul_right _ h
    _ < 2 ^ (1024 + 1074) := by rw [← Nat.pow_add]; exact Nat.pow_lt_pow_right (by omega) (by omega)

theorem digit_lower {c : UInt8} (h : IsDigit c) : lowerAscii c ≠ c! 'i' ∧ lowerAscii c ≠ c! 'n' := by
  unfold lowerAscii
  unfold IsDigit at h
  grind

theorem parseF64_digits (neg : Bool) {ds : Bytes} (h0 : ds ≠ []) (h : ∀ c ∈ ds, IsDigit c) :
    parseF64Unsigned neg ds = some (F64.ofRat neg (decVal ds) 1) := by
  unfold parseF64Unsigned
  have hl : ∃ c r, ds = c :: r := by
    cases ds with
    | nil => exact absurd rfl h0
    | cons c r => exact ⟨c, r, rfl⟩
  obtain ⟨c, r, rfl⟩ := hl
  have hc := digit_lower (h c (by simp))
  simp only [List.map_cons, List.cons.injEq, hc.1, hc.2, false_and, or_self, if_false, spanDigits_all h]
  simp [decToF64, digitsVal_eq]

/-- An integer numeral of at most 53 bits is converted exactly. -/
theorem rawToF64_int {n : Int} (h : n.natAbs ≤ 2 ^ 53) :
    rawToF64 (intNumeral n) = .fin (decide (n < 0)) (n.natAbs * F64.unit) := by
  obtain ⟨a1, a2, a3, _⟩ := numeral_spec n.natAbs
  unfold rawToF64 intNumeral
  split
  · rename_i hn
    unfold parseF64
    simp only
    rw [if_pos trivial, parseF64_digits true a1 a2, a3, ofRat_nat h]
    simp [hn]
  · rename_i hn
    have : parseF64 (numeral n.natAbs) = parseF64Unsigned false (numeral n.natAbs) := by
      unfold parseF64
      generalize hg : numeral n.natAbs = ds at *
      cases ds with
      | nil => exact absurd rfl a1
      | cons c r =>
        have hc := digit_not_sign (a2 c (by simp))
        simp only
        rw [if_neg hc.1, if_neg hc.2]
    rw [this, parseF64_digits false a1 a2, a3, ofRat_nat h]
    simp [hn]

theorem F64.signed_int (n : Int) : F64.signed (decide (n < 0)) (n.natAbs * F64.unit) = n * (F64.unit : Int) := by
  unfold F64.signed
  by_cases h : n < 0
  · rw [if_pos (by simpa using h), Int.natCast_mul, ← Int.neg_mul]; congr 1; omega
  · rw [if_neg (by simpa using h), Int.natCast_mul]; congr 1; omega

theorem F64.unit_pos : (0 : Int) < (F64.unit : Int) := by
  exact Int.natCast_pos.2 (Nat.two_pow_pos _)

theorem F64.lt_int (m n : Int) : F64.lt (.fin (decide (m < 0)) (m.natAbs * F64.unit)) (.fin (decide (n < 0)) (n.natAbs * F64.unit)) =
    decide (m < n) := by
  simp only [F64.lt]
  rw [signed_int, signed_int, decide_eq_decide]
  exact Int.mul_lt_mul_right F64.unit_pos

theorem F64.eq_int (m n : Int) : F64.eq (.fin (decide (m < 0)) (m.natAbs * F64.unit)) (.fin (decide (n < 0)) (n.natAbs * F64.unit)) =
    decide (m = n) := by
  simp only [F64.eq]
  rw [signed_int, signed_int, Bool.beq_eq_decide_eq, decide_eq_decide]
  exact ⟨fun h => Int.eq_of_mul_eq_mul_right (Int.ne_of_gt F64.unit_pos) h, fun h => by rw [h]⟩

theorem F64.eq_comm' (x y : F64) : F64.eq x y = F64.eq y x := by
  cases x <;> cases y <;> simp only [F64.eq]
  · rename_i a b; cases a <;> cases b <;> rfl
  · rename_i a k b l
    rw [Bool.beq_eq_decide_eq, Bool.beq_eq_decide_eq, decide_eq_decide]; exact eq_comm

/-- Numbers are less, equal or greater. -/
theorem F64.trichotomy {x y : F64} (hx : x ≠ .nan) (hy : y ≠ .nan) :
    (x.lt y = true ∧ x.eq y = false ∧ y.lt x = false) ∨ (x.lt y = false ∧ x.eq y = true ∧ y.lt x = false) ∨
    (x.lt y = false ∧ x.eq y = false ∧ y.lt x = true) := by
  cases x with
  | nan => exact absurd rfl hx
  | inf a =>
    cases y with
    | nan => exact absurd rfl hy
    | inf b => cases a <;> cases b <;> decide
    | fin b l => cases a <;> simp [F64.lt, F64.eq]
  | fin a k =>
    cases y with
    | nan => exact absurd rfl hy
    | inf b => cases b <;> simp [F64.lt, F64.eq]
    | fin b l =>
      simp only [F64.lt, F64.eq, decide_eq_true_eq, decide_eq_false_iff_not, beq_iff_eq, beq_eq_false_iff_ne]
      omega

end Gjson
