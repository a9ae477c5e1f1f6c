import Verif.Lemmas.Round
import Verif.Lemmas.Float
/-
`ofRat`, `toF32` and the parser of float literals meet the specification of rounding;
that specification has one solution and is monotone.
-/
namespace Gjson
open Spec

theorem mag_sub (k : Nat) (q : ℚ) : |mag k - q| = |(k : ℚ) - q * 2 ^ 1074| / 2 ^ 1074 := by
  have hU : (0 : ℚ) < 2 ^ 1074 := by positivity
  unfold mag
  generalize (2 : ℚ) ^ 1074 = U at hU ⊢
  rw [show (k : ℚ) / U - q = ((k : ℚ) - q * U) / U by field_simp, abs_div, abs_of_pos hU]

/-- Formats wide enough for the lemmas below. -/
structure Format.Ok (f : Format) : Prop where
  bits : 2 ≤ f.bits
  wide : 1074 + f.bits + 1 ≤ f.limit
  step : f.step + f.bits + 1 ≤ f.limit

theorem ok64 : Format.Ok binary64 := ⟨by decide, by decide, by decide⟩
theorem ok32 : Format.Ok binary32 := ⟨by decide, by decide, by decide⟩

theorem bound_scaled {f : Format} (hf : Format.Ok f) : f.bound * 2 ^ 1074 = 2 ^ f.limit - 2 ^ (f.limit - f.bits - 1) := by
  have := hf.wide
  unfold Format.bound
  rw [sub_mul, ← pow_add, ← pow_add]
  congr 2 <;> omega

/-- The result of rounding in last places meets the specification. -/
theorem rounds_of {f : Format} (hf : Format.Ok f) (neg : Bool) {q : ℚ} {w r : Nat} (h1 : (w : ℚ) ≤ q * 2 ^ 1074)
    (h2 : q * 2 ^ 1074 < w + 1) (hr : NearInt r (q * 2 ^ 1074 / 2 ^ lastPlace f w)) :
    f.Rounds neg q (if r * 2 ^ lastPlace f w < 2 ^ f.limit then .fin neg (r * 2 ^ lastPlace f w) else .inf neg) := by
  have hU : (0 : ℚ) < 2 ^ 1074 := by positivity
  have hb := hf.bits
  have hlim : q < f.bound ↔ r * 2 ^ lastPlace f w < 2 ^ f.limit := by
    rw [round_limit hb hf.step h1 h2 hr, ← bound_scaled hf]
    exact (mul_lt_mul_iff_left₀ hU).symm
  split
  · rename_i hlt
    left
    refine ⟨hlim.2 hlt, _, rfl, ?_, ?_⟩
    · obtain ⟨m, a, g1, g2, g3, _⟩ := round_sig hb h1 h2 hr
      exact ⟨hlt, m, a, g1, g2, g3⟩
    · rintro y ⟨_, m, a, g1, g2, g3⟩
      obtain ⟨g4, g5⟩ := round_near (by omega) h1 hr g1 g2 g3
      rw [mag_sub, mag_sub]
      refine ⟨div_le_div_of_nonneg_right g4 hU.le, fun hne he => ?_⟩
      have he' := g5 hne ((div_left_inj' hU.ne').1 he)
      obtain ⟨m, a, k1, k2, k3, k4, k5⟩ := round_sig hb h1 h2 hr
      exact ⟨m, a, k1, k2, k3, k4, k5 he'⟩
  · rename_i hge
    right
    exact ⟨not_lt.1 (fun h => hge (hlim.1 h)), rfl⟩

theorem ofRat_rounds (neg : Bool) (num : Nat) {den : Nat} (hd : 0 < den) :
    binary64.Rounds neg ((num : ℚ) / den) (F64.ofRat neg num den) := by
  have hD : (0 : ℚ) < den := by exact_mod_cast hd
  have hN : (num : ℚ) / den * 2 ^ 1074 = ((num * F64.unit : Nat) : ℚ) / den := by
    unfold F64.unit; push_cast; ring
  have hlp : ∀ w, lastPlace binary64 w = Nat.log2 w - 52 := fun w => by unfold lastPlace binary64; simp
  have hw := Nat.div_add_mod (num * F64.unit) den
  have hm := Nat.mod_lt (num * F64.unit) hd
  have h1 : ((num * F64.unit / den : Nat) : ℚ) ≤ (num : ℚ) / den * 2 ^ 1074 := by
    rw [hN, le_div_iff₀ hD]
    exact_mod_cast (by rw [Nat.mul_comm]; omega : num * F64.unit / den * den ≤ num * F64.unit)
  have h2 : (num : ℚ) / den * 2 ^ 1074 < ((num * F64.unit / den : Nat) : ℚ) + 1 := by
    rw [hN, div_lt_iff₀ hD]
    exact_mod_cast (by rw [Nat.add_mul, Nat.mul_comm _ den]; omega : num * F64.unit < (num * F64.unit / den + 1) * den)
  have hr : NearInt (F64.roundHalfEven (num * F64.unit) (den * 2 ^ (Nat.log2 (num * F64.unit / den) - 52)))
      ((num : ℚ) / den * 2 ^ 1074 / 2 ^ lastPlace binary64 (num * F64.unit / den)) := by
    have := rhe_half (num * F64.unit) (den * 2 ^ (Nat.log2 (num * F64.unit / den) - 52)) (Nat.mul_pos hd (Nat.two_pow_pos _))
    rw [hlp, hN, div_div]
    unfold NearInt
    have e : ((den * 2 ^ (Nat.log2 (num * F64.unit / den) - 52) : Nat) : ℚ) = (den : ℚ) * 2 ^ (Nat.log2 (num * F64.unit / den) - 52) := by
      push_cast; rfl
    rwa [e] at this
  have := rounds_of ok64 neg h1 h2 hr
  rw [hlp] at this
  exact this

theorem toF32_rounds (neg : Bool) (k : Nat) : binary32.Rounds neg (mag k) (F64.toF32 (.fin neg k)) := by
  have hU : (2 : ℚ) ^ 1074 ≠ 0 := by positivity
  have hm : mag k * 2 ^ 1074 = k := by unfold mag; exact div_mul_cancel₀ _ hU
  have hr : NearInt (F64.roundHalfEven k (2 ^ lastPlace binary32 k)) (mag k * 2 ^ 1074 / 2 ^ lastPlace binary32 k) := by
    have := rhe_half k (2 ^ lastPlace binary32 k) (Nat.two_pow_pos _)
    rw [hm]
    unfold NearInt
    have e : ((2 ^ lastPlace binary32 k : Nat) : ℚ) = 2 ^ lastPlace binary32 k := by push_cast; rfl
    rwa [e] at this
  have := rounds_of ok32 neg (by rw [hm]) (by rw [hm]; linarith) hr
  have hlp : max (Nat.log2 k - 23) 925 = lastPlace binary32 k := rfl
  simp only [F64.toF32]
  rw [hlp, show 128 + 1074 = binary32.limit from rfl]
  exact this

theorem decToF64_rounds (neg : Bool) (d : Nat) (e : Int) : binary64.Rounds neg ((d : ℚ) * 10 ^ e) (decToF64 neg d e) := by
  unfold decToF64
  split
  · rename_i h
    have := ofRat_rounds neg (d * 10 ^ e.toNat) (den := 1) (by omega)
    have hq : (d : ℚ) * 10 ^ e = ((d * 10 ^ e.toNat : Nat) : ℚ) / (1 : Nat) := by
      obtain ⟨n, rfl⟩ := Int.eq_ofNat_of_zero_le h
      simp
    rw [hq]; exact this
  · rename_i h
    have := ofRat_rounds neg d (den := 10 ^ (-e).toNat) (Nat.pow_pos (by omega))
    have hq : (d : ℚ) * 10 ^ e = (d : ℚ) / ((10 ^ (-e).toNat : Nat) : ℚ) := by
      obtain ⟨n, hn⟩ := Int.eq_ofNat_of_zero_le (show 0 ≤ -e by omega)
      rw [hn, show e = -(n : Int) by omega, zpow_neg]
      simp [div_eq_mul_inv]
    rw [hq]; exact this

/-! ### Float literals -/

theorem spanDigits_append {ds r : Bytes} (h : ∀ c ∈ ds, IsDigit c) (hr : ∀ c ∈ r.head?, ¬ IsDigit c) : spanDigits (ds ++ r) = (ds, r) := by
  induction ds with
  | nil =>
    cases r with
    | nil => rfl
    | cons c r =>
      have := hr c (by simp)
      rw [← isDigit_iff] at this
      simp [spanDigits, this]
  | cons c ds ih =>
    rw [List.cons_append, spanDigits, if_pos ((isDigit_iff c).2 (h c (by simp))), ih (fun x hx => h x (by simp [hx]))]

theorem intPart_digits {ip : Bytes} (h : IntPart ip) : ip ≠ [] ∧ ∀ c ∈ ip, IsDigit c := by
  rcases h with rfl | ⟨d, ds, rfl, h1, _, h2⟩
  · exact ⟨by simp, by simp; decide⟩
  · refine ⟨by simp, fun c hc => ?_⟩
    rcases List.mem_cons.1 hc with rfl | hc
    · exact h1
    · exact h2 c hc

theorem parseExp_eq {ep : Bytes} (h : ExpPart ep) : parseExp ep = some (expVal ep) := by
  rcases h with rfl | ⟨e, sg, ds, rfl, he, hs, hne, hd⟩
  · rfl
  · have hn := parseNat_eq hne hd
    unfold parseExp expVal
    simp only
    rw [if_pos he]
    rcases hs with rfl | rfl | rfl
    · cases ds with
      | nil => exact absurd rfl hne
      | cons d r =>
        have := digit_not_sign (hd d (by simp))
        simp only [List.nil_append]
        rw [if_neg this.1, if_neg this.1, if_neg this.2, if_neg this.2, hn]
        rfl
    · simp [hn]
    · simp [hn]

theorem expPart_head {ep : Bytes} (h : ExpPart ep) : ∀ c ∈ ep.head?, ¬ IsDigit c ∧ c ≠ c! '.' := by
  rcases h with rfl | ⟨e, sg, ds, rfl, he, _⟩
  · simp
  · intro c hc
    simp at hc; subst hc
    rcases he with rfl | rfl <;> decide

theorem parseF64Unsigned_lit (neg : Bool) {ip fp ep : Bytes} (hi : IntPart ip) (hf : FracPart fp) (he : ExpPart ep) :
    parseF64Unsigned neg (ip ++ (fp ++ ep)) =
      some (decToF64 neg (decVal (ip ++ fp.drop 1)) (expVal ep - ((fp.drop 1).length : Int))) := by
  obtain ⟨hne, hd⟩ := intPart_digits hi
  unfold parseF64Unsigned
  have hl : ∃ c r, ip = c :: r := by
    cases ip with
    | nil => exact absurd rfl hne
    | cons c r => exact ⟨c, r, rfl⟩
  have hlow : ¬ ((ip ++ (fp ++ ep)).map lowerAscii = b!"inf" ∨ (ip ++ (fp ++ ep)).map lowerAscii = b!"infinity") ∧
      ¬ (ip ++ (fp ++ ep)).map lowerAscii = b!"nan" := by
    obtain ⟨c, r, rfl⟩ := hl
    have hc := digit_lower (hd c (by simp))
    simp [List.map_cons, List.cons.injEq, hc.1, hc.2]
  simp only
  rw [if_neg hlow.1, if_neg hlow.2]
  rcases hf with rfl | ⟨ds, rfl, hdn, hdd⟩
  · rw [List.nil_append, spanDigits_append hd (fun c hc => (expPart_head he c hc).1)]
    simp only [List.drop_nil, List.append_nil, List.length_nil, Int.natCast_zero, Int.sub_zero]
    cases ep with
    | nil => simp only [hne, if_false, digitsVal_eq]; rfl
    | cons c r =>
      have := (expPart_head he c (by simp)).2
      simp only [this, hne, if_false]
      rw [parseExp_eq he]
      simp [digitsVal_eq]
  · rw [spanDigits_append hd (by intro c hc; simp at hc; subst hc; decide)]
    simp only [List.cons_append, if_true, List.drop_succ_cons, List.drop_zero]
    rw [spanDigits_append hdd (fun c hc => (expPart_head he c hc).1)]
    simp only [hne, false_and, if_false]
    rw [parseExp_eq he]
    simp [digitsVal_eq]

theorem rawToF64_lit {t : Bytes} {neg : Bool} {q : ℚ} (h : NumDenotes t neg q) : binary64.Rounds neg q (rawToF64 t) := by
  obtain ⟨sg, ip, fp, ep, rfl, hs, hi, hf, he, rfl⟩ := h
  have key : parseF64 (sg ++ (ip ++ (fp ++ ep))) = parseF64Unsigned neg (ip ++ (fp ++ ep)) := by
    cases neg with
    | true => rw [if_pos rfl] at hs; subst hs; unfold parseF64; simp
    | false =>
      rw [if_neg (by simp)] at hs; subst hs
      obtain ⟨hne, hd⟩ := intPart_digits hi
      cases ip with
      | nil => exact absurd rfl hne
      | cons c r =>
        have := digit_not_sign (hd c (by simp))
        unfold parseF64
        simp [this.1, this.2]
  unfold rawToF64
  rw [key, parseF64Unsigned_lit neg hi hf he]
  exact decToF64_rounds _ _ _

/-! ### Uniqueness and monotonicity of rounding -/

/-- Between two numbers with even significands there is another number of the format. -/
theorem even_gap {f : Format} {k k' : Nat} (hk : f.Even k) (hk' : f.Even k') (hlt : k < k') (hlim : k' < 2 ^ f.limit) :
    ∃ y, f.Has y ∧ k < y ∧ y < k' := by
  obtain ⟨m, a, rfl, h1, h2, h3, h4⟩ := hk
  obtain ⟨m', a', rfl, g1, g2, g3, g4⟩ := hk'
  have hp := Nat.two_pow_pos a
  have hp' := Nat.two_pow_pos a'
  have hb : f.bits ≠ 0 := by
    intro h
    rw [h] at g1
    have : m' = 0 := by simpa using g1
    subst this; simp at hlt
  have hbits : 2 ^ f.bits = 2 ^ (f.bits - 1) * 2 := by rw [← Nat.pow_succ]; congr 1; omega
  have hlt' : (m + 1) * 2 ^ a < m' * 2 ^ a' := by
    rcases Nat.lt_trichotomy a' a with h | h | h
    · -- then `k` would not fit below `k'`
      exfalso
      have h5 : 2 ^ (f.bits - 1) ≤ m := by rcases h3 with h3 | h3; omega; exact h3
      have h6 : 2 ^ f.bits * 2 ^ a' ≤ m * 2 ^ a := by
        rw [hbits, Nat.mul_assoc, ← Nat.pow_succ']
        exact Nat.mul_le_mul h5 (Nat.pow_le_pow_right (by omega) h)
      have h7 : m' * 2 ^ a' < 2 ^ f.bits * 2 ^ a' := Nat.mul_lt_mul_of_pos_right g1 hp'
      omega
    · subst h
      have h5 := (Nat.mul_lt_mul_right hp).1 hlt
      exact (Nat.mul_lt_mul_right hp).2 (by omega)
    · have e : m' * 2 ^ a' = m' * 2 ^ (a' - a) * 2 ^ a := by rw [Nat.mul_assoc, ← Nat.pow_add]; congr 2; omega
      rw [e] at hlt ⊢
      have h5 := (Nat.mul_lt_mul_right hp).1 hlt
      have h6 : m' * 2 ^ (a' - a) % 2 = 0 := by
        rw [show a' - a = a' - a - 1 + 1 by omega, Nat.pow_succ, ← Nat.mul_assoc]; omega
      exact (Nat.mul_lt_mul_right hp).2 (by omega)
  refine ⟨(m + 1) * 2 ^ a, ⟨by omega, m + 1, a, rfl, ?_, h2⟩, (Nat.mul_lt_mul_right hp).2 (by omega), hlt'⟩
  omega

theorem near_mid {f : Format} {q q' : ℚ} {k k' : Nat} (hk : f.Has k) (hk' : f.Has k')
    (h : ∀ y, f.Has y → |mag k - q| ≤ |mag y - q| ∧ (y ≠ k → |mag k - q| = |mag y - q| → f.Even k))
    (h' : ∀ y, f.Has y → |mag k' - q'| ≤ |mag y - q'| ∧ (y ≠ k' → |mag k' - q'| = |mag y - q'| → f.Even k'))
    (hq : q' ≤ q) (hlt : k < k') : False := by
  have hU : (0 : ℚ) < 2 ^ 1074 := by positivity
  have lt_mag : ∀ {a b : Nat}, a < b → mag a < mag b := by
    intro a b hab
    unfold mag
    exact div_lt_div_of_pos_right (by exact_mod_cast hab) hU
  have hm := lt_mag hlt
  have h1 := (h k' hk').1
  have h2 := (h' k hk).1
  -- both are at the middle
  have a1 : q ≤ (mag k + mag k') / 2 := by
    by_contra hc
    rw [not_le] at hc
    have : |mag k' - q| < |mag k - q| := by
      rw [abs_lt]
      rcases le_total (mag k - q) 0 with h0 | h0
      · rw [abs_of_nonpos h0]; constructor <;> linarith
      · linarith
    linarith
  have a2 : (mag k + mag k') / 2 ≤ q' := by
    by_contra hc
    rw [not_le] at hc
    have : |mag k - q'| < |mag k' - q'| := by
      rw [abs_lt]
      rcases le_total (mag k' - q') 0 with h0 | h0
      · linarith
      · rw [abs_of_nonneg h0]; constructor <;> linarith
    linarith
  have e1 : q = (mag k + mag k') / 2 := le_antisymm a1 (le_trans a2 hq)
  have e2 : q' = (mag k + mag k') / 2 := le_antisymm (le_trans hq a1) a2
  have d1 : |mag k - q| = (mag k' - mag k) / 2 := by rw [e1, abs_of_nonpos (by linarith)]; ring
  have d2 : |mag k' - q| = (mag k' - mag k) / 2 := by rw [e1, abs_of_nonneg (by linarith)]; ring
  rw [e2, ← e1] at h'
  have ev := (h k' hk').2 (by omega) (by rw [d1, d2])
  have ev' := (h' k hk).2 (by omega) (by rw [d1, d2])
  obtain ⟨y, hy, y1, y2⟩ := even_gap ev ev' hlt hk'.1
  have m1 := lt_mag y1
  have m2 := lt_mag y2
  have := (h y hy).1
  rw [d1] at this
  have hc : |mag y - q| < (mag k' - mag k) / 2 := by rw [abs_lt, e1]; constructor <;> linarith
  linarith

/-- Rounding has one result. -/
theorem rounds_unique {f : Format} {neg : Bool} {q : ℚ} {x y : F64} (hx : f.Rounds neg q x) (hy : f.Rounds neg q y) : x = y := by
  rcases hx with ⟨h1, k, rfl, h2, h3⟩ | ⟨h1, rfl⟩
  · rcases hy with ⟨g1, l, rfl, g2, g3⟩ | ⟨g1, rfl⟩
    · rcases Nat.lt_trichotomy k l with h | h | h
      · exact (near_mid h2 g2 h3 g3 (le_refl _) h).elim
      · rw [h]
      · exact (near_mid g2 h2 g3 h3 (le_refl _) h).elim
    · exact absurd g1 (not_le.2 h1)
  · rcases hy with ⟨g1, l, rfl, g2, g3⟩ | ⟨g1, rfl⟩
    · exact absurd h1 (not_le.2 g1)
    · rfl

/-- Magnitudes keep their order. -/
theorem rounds_mono {f : Format} {n n' : Bool} {q q' : ℚ} {x y : F64} (hx : f.Rounds n q x) (hy : f.Rounds n' q' y) (hq : q ≤ q') :
    (∃ k, x = .fin n k ∧ ((∃ l, y = .fin n' l ∧ k ≤ l) ∨ y = .inf n')) ∨ (x = .inf n ∧ y = .inf n') := by
  rcases hx with ⟨h1, k, rfl, h2, h3⟩ | ⟨h1, rfl⟩
  · left
    refine ⟨k, rfl, ?_⟩
    rcases hy with ⟨g1, l, rfl, g2, g3⟩ | ⟨g1, rfl⟩
    · left
      exact ⟨l, rfl, not_lt.1 fun h => near_mid g2 h2 g3 h3 hq h⟩
    · exact .inr rfl
  · right
    rcases hy with ⟨g1, l, rfl, g2, g3⟩ | ⟨g1, rfl⟩
    · exact absurd (le_trans h1 hq) (not_le.2 g1)
    · exact ⟨rfl, rfl⟩

end Gjson
