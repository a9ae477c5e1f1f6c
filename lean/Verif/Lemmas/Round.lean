import Verif.SpecNum
import Mathlib.Tactic.Linarith
import Mathlib.Tactic.Positivity
import Mathlib.Tactic.Ring
import Mathlib.Tactic.FieldSimp
/-
Rounding: what `roundHalfEven` and `ofRat` do, in terms of rational numbers.
-/
namespace Gjson
open Spec

theorem rhe_half (N D : Nat) (hD : 0 < D) :
    |(F64.roundHalfEven N D : ℚ) - N / D| ≤ 1 / 2 ∧
      (|(F64.roundHalfEven N D : ℚ) - N / D| = 1 / 2 → F64.roundHalfEven N D % 2 = 0) := by
  have hd : (0 : ℚ) < D := by exact_mod_cast hD
  have hm : (N : ℚ) / D = (N / D : Nat) + ((N % D : Nat) : ℚ) / D := by
    have : (N : ℚ) = D * (N / D : Nat) + (N % D : Nat) := by exact_mod_cast (Nat.div_add_mod N D).symm
    field_simp
    linarith
  have h0 : (0 : ℚ) ≤ ((N % D : Nat) : ℚ) / D := by positivity
  have h1 : ((N % D : Nat) : ℚ) / D < 1 := by
    rw [div_lt_one hd]; exact_mod_cast Nat.mod_lt N hD
  have e1 : 2 * (N % D) < D ↔ ((N % D : Nat) : ℚ) / D < 1 / 2 := by
    rw [div_lt_iff₀ hd, ← Nat.cast_lt (α := ℚ)]; push_cast; constructor <;> intro h <;> linarith
  have e2 : D < 2 * (N % D) ↔ 1 / 2 < ((N % D : Nat) : ℚ) / D := by
    rw [lt_div_iff₀ hd, ← Nat.cast_lt (α := ℚ)]; push_cast; constructor <;> intro h <;> linarith
  rw [hm]
  generalize ((N % D : Nat) : ℚ) / D = t at *
  unfold F64.roundHalfEven
  simp only
  split
  · rename_i h
    rw [e1] at h
    rw [show ((N / D : Nat) : ℚ) - ((N / D : Nat) + t) = -t by ring, abs_neg, abs_of_nonneg h0]
    exact ⟨h.le, fun h' => absurd h' h.ne⟩
  · rename_i h
    rw [e1] at h
    split
    · rename_i h'
      rw [gt_iff_lt, e2] at h'
      push_cast
      rw [show ((N / D : Nat) : ℚ) + 1 - ((N / D : Nat) + t) = 1 - t by ring, abs_of_nonneg (by linarith)]
      exact ⟨by linarith, fun h'' => by linarith⟩
    · rename_i h'
      rw [gt_iff_lt, e2] at h'
      have ht : t = 1 / 2 := le_antisymm (not_lt.1 h') (not_lt.1 h)
      split
      · rename_i h2
        rw [show ((N / D : Nat) : ℚ) - ((N / D : Nat) + t) = -t by ring, abs_neg, abs_of_nonneg h0]
        exact ⟨ht.le, fun _ => h2⟩
      · rename_i h2
        push_cast
        rw [show ((N / D : Nat) : ℚ) + 1 - ((N / D : Nat) + t) = 1 - t by ring, abs_of_nonneg (by linarith)]
        exact ⟨by linarith, fun _ => by omega⟩

/-- `r` is the nearest whole number to `x`, ties to even. -/
def NearInt (r : Nat) (x : ℚ) : Prop := |(r : ℚ) - x| ≤ 1 / 2 ∧ (|(r : ℚ) - x| = 1 / 2 → r % 2 = 0)

theorem NearInt.near {r : Nat} {x : ℚ} (h : NearInt r x) (j : Nat) :
    |(r : ℚ) - x| ≤ |(j : ℚ) - x| ∧ (j ≠ r → |(r : ℚ) - x| = |(j : ℚ) - x| → r % 2 = 0) := by
  by_cases hj : j = r
  · subst hj; exact ⟨le_refl _, fun h => absurd rfl h⟩
  · have h1 : (1 : ℚ) ≤ |(j : ℚ) - r| := by
      have : (1 : ℤ) ≤ |(j : ℤ) - r| := Int.one_le_abs (by omega)
      exact_mod_cast this
    have h2 : |(j : ℚ) - r| ≤ |(j : ℚ) - x| + |(r : ℚ) - x| := by
      have := abs_sub_le (j : ℚ) x r
      rwa [abs_sub_comm x] at this
    have h3 := h.1
    exact ⟨by linarith, fun _ he => h.2 (le_antisymm h3 (by linarith))⟩

theorem NearInt.mono {r j : Nat} {x : ℚ} (h : NearInt r x) : (j : ℚ) ≤ x → j ≤ r := by
  intro hj
  by_contra hc
  have h1 : (r : ℚ) + 1 ≤ j := by exact_mod_cast (not_le.1 hc)
  have := (abs_le.1 h.1).1
  linarith

theorem NearInt.mono' {r j : Nat} {x : ℚ} (h : NearInt r x) : x ≤ (j : ℚ) → r ≤ j := by
  intro hj
  by_contra hc
  have h1 : (j : ℚ) + 1 ≤ r := by exact_mod_cast (not_le.1 hc)
  have := (abs_le.1 h.1).2
  linarith

/-- The exponent of the last place for a number whose whole part is `q`. -/
def lastPlace (f : Format) (q : Nat) : Nat := max (Nat.log2 q - (f.bits - 1)) f.step

variable {f : Format} {x : ℚ} {q r : Nat}

/-- A magnitude of the format that is not below the binade of `x` is a multiple of the last place. -/
theorem multiple_of_has (hb : 1 ≤ f.bits) {y m a : Nat} (hy : y = m * 2 ^ a) (hm : m < 2 ^ f.bits) (ha : f.step ≤ a)
    (hq : q = 0 ∨ 2 ^ Nat.log2 q ≤ y) : ∃ j, y = j * 2 ^ lastPlace f q := by
  have hle : lastPlace f q ≤ a := by
    unfold lastPlace
    refine max_le ?_ ha
    rcases hq with rfl | hq
    · simp
    · by_contra hc
      have h1 : y < 2 ^ f.bits * 2 ^ a := by rw [hy]; exact Nat.mul_lt_mul_of_pos_right hm (Nat.two_pow_pos a)
      rw [← Nat.pow_add] at h1
      have h2 := (Nat.pow_lt_pow_iff_right (by omega : 1 < 2)).1 (lt_of_le_of_lt hq h1)
      omega
  exact ⟨m * 2 ^ (a - lastPlace f q), by rw [hy, Nat.mul_assoc, ← Nat.pow_add]; congr 2; omega⟩

theorem round_near (hb : 1 ≤ f.bits) (hq1 : (q : ℚ) ≤ x) (hr : NearInt r (x / 2 ^ lastPlace f q)) {y m a : Nat}
    (hy : y = m * 2 ^ a) (hm : m < 2 ^ f.bits) (ha : f.step ≤ a) :
    |((r * 2 ^ lastPlace f q : Nat) : ℚ) - x| ≤ |(y : ℚ) - x| ∧
      (y ≠ r * 2 ^ lastPlace f q → |((r * 2 ^ lastPlace f q : Nat) : ℚ) - x| = |(y : ℚ) - x| → r % 2 = 0) := by
  have hu : (0 : ℚ) < 2 ^ lastPlace f q := by positivity
  have scale : ∀ j : Nat, |((j * 2 ^ lastPlace f q : Nat) : ℚ) - x| = |(j : ℚ) - x / 2 ^ lastPlace f q| * 2 ^ lastPlace f q := by
    intro j
    rw [← abs_of_pos hu, ← abs_mul, abs_of_pos hu]
    congr 1
    push_cast
    field_simp
  have mult : ∀ j : Nat, |((r * 2 ^ lastPlace f q : Nat) : ℚ) - x| ≤ |((j * 2 ^ lastPlace f q : Nat) : ℚ) - x| ∧
      (j ≠ r → |((r * 2 ^ lastPlace f q : Nat) : ℚ) - x| = |((j * 2 ^ lastPlace f q : Nat) : ℚ) - x| → r % 2 = 0) := by
    intro j
    rw [scale, scale]
    obtain ⟨h1, h2⟩ := hr.near j
    exact ⟨mul_le_mul_of_nonneg_right h1 hu.le, fun hj he => h2 hj (mul_right_cancel₀ hu.ne' he)⟩
  by_cases hc : q = 0 ∨ 2 ^ Nat.log2 q ≤ y
  · obtain ⟨j, rfl⟩ := multiple_of_has hb hy hm ha hc
    obtain ⟨h1, h2⟩ := mult j
    exact ⟨h1, fun hne => h2 (fun h => hne (by rw [h]))⟩
  · simp only [not_or, not_le] at hc
    -- below the binade: the lower end of the binade is nearer
    have hL : 2 ^ Nat.log2 q ≤ q := Nat.log2_self_le hc.1
    by_cases hs : lastPlace f q ≤ Nat.log2 q
    · have h3 : ((2 ^ (Nat.log2 q - lastPlace f q) * 2 ^ lastPlace f q : Nat)) = 2 ^ Nat.log2 q := by
        rw [← Nat.pow_add]; congr 1; omega
      have h4 := (mult (2 ^ (Nat.log2 q - lastPlace f q))).1
      rw [h3] at h4
      have h5 : ((2 ^ Nat.log2 q : Nat) : ℚ) ≤ x := le_trans (by exact_mod_cast hL) hq1
      have h6 : (y : ℚ) < ((2 ^ Nat.log2 q : Nat) : ℚ) := by exact_mod_cast hc.2
      rw [abs_of_nonpos (sub_nonpos.2 h5)] at h4
      have h7 : |(y : ℚ) - x| = x - y := by rw [abs_of_nonpos (by linarith)]; ring
      rw [h7]
      exact ⟨by linarith, fun _ he => absurd he (by intro he; linarith)⟩
    · -- the last place is the smallest step: every magnitude is a multiple of it
      have hst : lastPlace f q = f.step := by unfold lastPlace at hs ⊢; omega
      have : ∃ j, y = j * 2 ^ lastPlace f q :=
        ⟨m * 2 ^ (a - f.step), by rw [hst, hy, Nat.mul_assoc, ← Nat.pow_add]; congr 2; omega⟩
      obtain ⟨j, rfl⟩ := this
      obtain ⟨h1, h2⟩ := mult j
      exact ⟨h1, fun hne => h2 (fun h => hne (by rw [h]))⟩

/-- The scaled number is below `2^bits`. -/
theorem scaled_lt (hb : 1 ≤ f.bits) (hq2 : x < q + 1) : x / 2 ^ lastPlace f q < 2 ^ f.bits := by
  rw [div_lt_iff₀ (by positivity)]
  have h1 : q + 1 ≤ 2 ^ (Nat.log2 q + 1) := Nat.lt_log2_self
  have h2 : 2 ^ (Nat.log2 q + 1) ≤ 2 ^ f.bits * 2 ^ lastPlace f q := by
    rw [← Nat.pow_add]
    refine Nat.pow_le_pow_right (by omega) ?_
    unfold lastPlace
    omega
  have : ((q : ℚ) + 1) ≤ 2 ^ f.bits * 2 ^ lastPlace f q := by exact_mod_cast le_trans h1 h2
  linarith

theorem scaled_ge (hb : 1 ≤ f.bits) (hq1 : (q : ℚ) ≤ x) (hs : f.step < lastPlace f q) :
    (2 : ℚ) ^ (f.bits - 1) ≤ x / 2 ^ lastPlace f q := by
  rw [le_div_iff₀ (by positivity)]
  have hl : lastPlace f q = Nat.log2 q - (f.bits - 1) := by unfold lastPlace at hs ⊢; omega
  have h0 : q ≠ 0 := by
    rintro rfl
    unfold lastPlace at hs
    simp at hs
  have h1 : 2 ^ (f.bits - 1) * 2 ^ lastPlace f q ≤ q := by
    rw [← Nat.pow_add, show f.bits - 1 + lastPlace f q = Nat.log2 q by omega]
    exact Nat.log2_self_le h0
  have : ((2 : ℚ) ^ (f.bits - 1) * 2 ^ lastPlace f q) ≤ q := by exact_mod_cast h1
  linarith

/-- The rounded number belongs to the format (apart from its limit), in lowest terms. -/
theorem round_sig (hb : 2 ≤ f.bits) (hq1 : (q : ℚ) ≤ x) (hq2 : x < q + 1) (hr : NearInt r (x / 2 ^ lastPlace f q)) :
    ∃ m a, r * 2 ^ lastPlace f q = m * 2 ^ a ∧ m < 2 ^ f.bits ∧ f.step ≤ a ∧ (a = f.step ∨ 2 ^ (f.bits - 1) ≤ m) ∧
      (r % 2 = 0 → m % 2 = 0) := by
  have h1 : r ≤ 2 ^ f.bits := hr.mono' (j := 2 ^ f.bits) (by push_cast; exact (scaled_lt (by omega) hq2).le)
  have hstep : f.step ≤ lastPlace f q := le_max_right _ _
  have hbits : 2 ^ f.bits = 2 ^ (f.bits - 1) * 2 := by rw [← Nat.pow_succ]; congr 1; omega
  rcases Nat.lt_or_eq_of_le h1 with h1 | h1
  · refine ⟨r, lastPlace f q, rfl, h1, hstep, ?_, id⟩
    rcases Nat.eq_or_lt_of_le hstep with h | h
    · exact .inl h.symm
    · exact .inr (hr.mono (by push_cast; exact scaled_ge (by omega) hq1 h))
  · refine ⟨2 ^ (f.bits - 1), lastPlace f q + 1, ?_, ?_, by omega, .inr (le_refl _), fun _ => ?_⟩
    · rw [h1, hbits, Nat.pow_succ]; ring
    · have := Nat.two_pow_pos (f.bits - 1); omega
    · rw [show f.bits - 1 = f.bits - 2 + 1 by omega, Nat.pow_succ]; omega

/-- Where rounding leaves the format. -/
theorem round_limit (hb : 2 ≤ f.bits) (hl : f.step + f.bits + 1 ≤ f.limit) (hq1 : (q : ℚ) ≤ x) (hq2 : x < q + 1)
    (hr : NearInt r (x / 2 ^ lastPlace f q)) :
    r * 2 ^ lastPlace f q < 2 ^ f.limit ↔ x < 2 ^ f.limit - 2 ^ (f.limit - f.bits - 1) := by
  have hu : (0 : ℚ) < 2 ^ lastPlace f q := by positivity
  have hlim : (2 : ℚ) ^ f.limit = 2 ^ f.bits * 2 ^ (f.limit - f.bits) := by rw [← pow_add]; congr 1; omega
  have hhalf : (2 : ℚ) ^ (f.limit - f.bits) = 2 * 2 ^ (f.limit - f.bits - 1) := by rw [← pow_succ']; congr 1; omega
  rcases Nat.lt_trichotomy (lastPlace f q) (f.limit - f.bits) with h | h | h
  · -- smaller binade
    have h1 : r * 2 ^ lastPlace f q < 2 ^ f.limit := by
      have h1 : r ≤ 2 ^ f.bits := hr.mono' (j := 2 ^ f.bits) (by push_cast; exact (scaled_lt (by omega) hq2).le)
      calc r * 2 ^ lastPlace f q ≤ 2 ^ f.bits * 2 ^ lastPlace f q := Nat.mul_le_mul_right _ h1
        _ = 2 ^ (f.bits + lastPlace f q) := by rw [← Nat.pow_add]
        _ < 2 ^ f.limit := Nat.pow_lt_pow_right (by omega) (by omega)
    have h2 : x < 2 ^ f.limit - 2 ^ (f.limit - f.bits - 1) := by
      have h3 := scaled_lt (f := f) (by omega) hq2
      rw [div_lt_iff₀ hu] at h3
      have h4 : (2 : ℚ) ^ lastPlace f q ≤ 2 ^ (f.limit - f.bits - 1) := pow_le_pow_right₀ (by norm_num) (by omega)
      have h5 : (0 : ℚ) < 2 ^ (f.limit - f.bits - 1) := by positivity
      have h6 : (1 : ℚ) ≤ 2 ^ f.bits := one_le_pow₀ (by norm_num)
      rw [hlim, hhalf]
      nlinarith
    exact ⟨fun _ => h2, fun _ => h1⟩
  · -- the last binade
    have hc : ((2 : ℚ) ^ f.limit - 2 ^ (f.limit - f.bits - 1)) / 2 ^ lastPlace f q = 2 ^ f.bits - 1 / 2 := by
      rw [div_eq_iff hu.ne', hlim, h, sub_mul, hhalf]; ring
    have e : x < 2 ^ f.limit - 2 ^ (f.limit - f.bits - 1) ↔ x / 2 ^ lastPlace f q < 2 ^ f.bits - 1 / 2 := by
      rw [← hc, div_lt_div_iff_of_pos_right hu]
    rw [e]
    have e2 : r * 2 ^ lastPlace f q < 2 ^ f.limit ↔ r < 2 ^ f.bits := by
      rw [show (2 : Nat) ^ f.limit = 2 ^ f.bits * 2 ^ lastPlace f q by rw [← Nat.pow_add]; congr 1; omega]
      exact Nat.mul_lt_mul_right (Nat.two_pow_pos _)
    rw [e2]
    have hbits : 2 ^ f.bits = 2 ^ (f.bits - 1) * 2 := by rw [← Nat.pow_succ]; congr 1; omega
    have hpos := Nat.two_pow_pos (f.bits - 1)
    constructor
    · intro hlt
      by_contra hge
      have h7 : (r : ℚ) + 1 ≤ 2 ^ f.bits := by exact_mod_cast hlt
      have h8 := abs_le.1 hr.1
      have h9 : (r : ℚ) = 2 ^ f.bits - 1 := by linarith [h8.1]
      have h10 : x / 2 ^ lastPlace f q = 2 ^ f.bits - 1 / 2 := le_antisymm (by linarith [h8.1]) (not_lt.1 hge)
      have h11 : r % 2 = 0 := hr.2 (by rw [h9, h10, abs_of_nonpos (by linarith)]; ring)
      have h12 : r + 1 = 2 ^ f.bits := by
        have : (r : ℚ) + 1 = 2 ^ f.bits := by linarith
        exact_mod_cast this
      omega
    · intro hlt
      by_contra hge
      have h7 : (2 : ℚ) ^ f.bits ≤ r := by exact_mod_cast (not_lt.1 hge)
      have h8 := (abs_le.1 hr.1).2
      linarith
  · -- larger binades
    have hge := scaled_ge (f := f) (by omega) hq1 (by omega)
    have h1 : 2 ^ (f.bits - 1) ≤ r := hr.mono (by push_cast; exact hge)
    have h2 : ¬ r * 2 ^ lastPlace f q < 2 ^ f.limit := by
      rw [not_lt]
      calc 2 ^ f.limit ≤ 2 ^ (f.bits - 1 + lastPlace f q) := Nat.pow_le_pow_right (by omega) (by omega)
        _ = 2 ^ (f.bits - 1) * 2 ^ lastPlace f q := by rw [← Nat.pow_add]
        _ ≤ r * 2 ^ lastPlace f q := Nat.mul_le_mul_right _ h1
    have h3 : ¬ x < 2 ^ f.limit - 2 ^ (f.limit - f.bits - 1) := by
      rw [not_lt]
      rw [le_div_iff₀ hu, ← pow_add] at hge
      have h4 : (2 : ℚ) ^ f.limit ≤ 2 ^ (f.bits - 1 + lastPlace f q) := pow_le_pow_right₀ (by norm_num) (by omega)
      have h5 : (0 : ℚ) < 2 ^ (f.limit - f.bits - 1) := by positivity
      linarith
    exact ⟨fun h => absurd h h2, fun h => absurd h h3⟩

end Gjson
