import Verif.Lemmas.Nearest
import Verif.Props.Values
import Verif.Props.Compare
/-
C42: what numbers are read as. `f64()` is the IEEE 754 binary64 number nearest to the
decimal number in the text, and sorting and queries follow the numeric order.
-/
namespace Gjson
open Spec

/-! ### The specification applies to every JSON number -/

/-- Every JSON number denotes a number, which is not negative but for the sign. -/
theorem C42_covers (t : Bytes) : NumLit t ↔ ∃ neg q, NumDenotes t neg q := by
  constructor
  · rintro ⟨sg, ip, fp, ep, rfl, hs, h1, h2, h3⟩
    rcases hs with rfl | rfl
    · exact ⟨false, _, [], ip, fp, ep, rfl, rfl, h1, h2, h3, rfl⟩
    · exact ⟨true, _, [c! '-'], ip, fp, ep, rfl, rfl, h1, h2, h3, rfl⟩
  · rintro ⟨neg, q, sg, ip, fp, ep, rfl, hs, h1, h2, h3, _⟩
    refine ⟨sg, ip, fp, ep, rfl, ?_, h1, h2, h3⟩
    cases neg
    · exact .inl hs
    · exact .inr hs

theorem Spec.NumDenotes.numLit {t : Bytes} {neg : Bool} {q : ℚ} (h : NumDenotes t neg q) : NumLit t :=
  (C42_covers t).2 ⟨neg, q, h⟩

theorem Spec.NumDenotes.nonneg {t : Bytes} {neg : Bool} {q : ℚ} (h : NumDenotes t neg q) : 0 ≤ q := by
  obtain ⟨sg, ip, fp, ep, _, _, _, _, _, rfl⟩ := h
  exact mul_nonneg (Nat.cast_nonneg _) (zpow_nonneg (by norm_num) _)

/-- `-12.5e1` is a number with absolute value 125. -/
theorem denotes_example : NumDenotes b!"-12.5e1" true 125 :=
  ⟨b!"-", b!"12", b!".5", b!"e1", rfl, rfl, .inr ⟨c! '1', b!"2", rfl, by decide, by decide, by decide⟩,
    .inr ⟨b!"5", rfl, by decide, by decide⟩, .inr ⟨c! 'e', [], b!"1", rfl, .inl rfl, .inl rfl, by decide, by decide⟩,
    by
      rw [show decVal (b!"12" ++ (b!".5").drop 1) = 125 by decide, show expVal b!"e1" = 1 by decide,
        show ((b!".5").drop 1).length = 1 by decide]
      norm_num⟩

/-! ### `f64()` -/

/-- C42: `f64()` of a number is the nearest binary64 number to the number in the text. -/
theorem C42_f64 {v : Value} {neg : Bool} {q : ℚ} (hk : v.kind = .number) (hd : NumDenotes v.json neg q) :
    ∃ x, v.f64 = .ok x ∧ binary64.Rounds neg q x := by
  refine ⟨rawToF64 v.json, ?_, rawToF64_lit hd⟩
  unfold Value.f64
  rw [hk]

theorem numLit_body {t : Bytes} (h : NumLit t) : StrBody t ∧ c! '\\' ∉ t := by
  have hc := numLit_numCh h
  clear h
  induction t with
  | nil => exact ⟨.nil, by simp⟩
  | cons c r ih =>
    obtain ⟨h1, h2⟩ := ih (fun x hx => hc x (by simp [hx]))
    have h0 := hc c (by simp)
    have : 0x20 ≤ c ∧ c ≠ c! '"' ∧ c ≠ c! '\\' := by unfold NumCh at h0; grind
    exact ⟨.plain this.1 this.2.1 this.2.2 h1, by simp [h2]; exact fun e => this.2.2 e.symm⟩

/-- C42: the same for a number between quotes. -/
theorem C42_f64_string {v : Value} {t : Bytes} {neg : Bool} {q : ℚ} (hk : v.kind = .string)
    (hj : v.json = c! '"' :: (t ++ [c! '"'])) (hd : NumDenotes t neg q) :
    ∃ x, v.f64 = .ok x ∧ binary64.Rounds neg q x := by
  obtain ⟨h1, h2⟩ := numLit_body hd.numLit
  refine ⟨rawToF64 t, ?_, rawToF64_lit hd⟩
  unfold Value.f64
  rw [hk]
  simp only
  rw [strForNum_quoted h1 h2 hj]
  rfl

/-- C42 from the text of a document, with any whitespace around the number. -/
theorem C42_parse {t : Bytes} {neg : Bool} {q : ℚ} (hd : NumDenotes t neg q) {w1 w2 : Bytes} (hw1 : Ws w1) (hw2 : Ws w2) :
    ∃ v x, parse (w1 ++ (t ++ w2)) = .ok v ∧ v.kind = .number ∧ v.json = t ∧ v.f64 = .ok x ∧ binary64.Rounds neg q x := by
  have hn := hd.numLit
  obtain ⟨hne, hkn⟩ := numLit_kindOf hn
  have hk : (leafVal (some (0 + w1.length)) t).kind = .number := by rw [leafVal_kind hne, hkn]
  have hj : (leafVal (some (0 + w1.length)) t).json = t := leafVal_json _ _
  obtain ⟨x, hx, hr⟩ := C42_f64 (v := leafVal (some (0 + w1.length)) t) hk (by rw [hj]; exact hd)
  refine ⟨_, x, ?_, hk, hj, hx, hr⟩
  rw [parse_eq, pParse_ws hw1, pParse_scalar (.num hn) (Follow.ws' hw2) (by rw [hkn]; decide)]

/-- C42: the specification leaves no choice: there is one nearest number. -/
theorem C42_unique {f : Format} {neg : Bool} {q : ℚ} {x y : F64} (hx : f.Rounds neg q x) (hy : f.Rounds neg q y) :
    x = y := rounds_unique hx hy

/-- Numbers in the text, halfway cases, underflow and overflow. -/
example : ((parse b!" -12.5e1 ") >>= Value.f64) = .ok (.fin true (125 * F64.unit)) ∧
    (parse b!"0.1" >>= Value.f64) = .ok (.fin false (3602879701896397 * 2 ^ (1074 - 55))) ∧
    (parse b!"9007199254740993" >>= Value.f64) = .ok (.fin false (9007199254740992 * F64.unit)) ∧
    (parse b!"9007199254740995.0" >>= Value.f64) = .ok (.fin false (9007199254740996 * F64.unit)) ∧
    (parse b!"2e-324" >>= Value.f64) = .ok (.fin false 0) ∧ (parse b!"3e-324" >>= Value.f64) = .ok (.fin false 1) ∧
    (parse b!"1e309" >>= Value.f64) = .ok (.inf false) := by decide +kernel

/-! ### The order -/

theorem lt_below (x y : F64) : x.lt y = true ↔ F64.Below x y := by
  have hU : (0 : ℚ) < 2 ^ 1074 := by positivity
  have key : ∀ (a : Bool) (k : Nat), signedQ a (mag k) = ((F64.signed a k : Int) : ℚ) / 2 ^ 1074 := by
    intro a k; unfold signedQ mag F64.signed; cases a <;> simp [neg_div]
  cases x <;> cases y <;> simp only [F64.lt, F64.Below, Bool.false_eq_true] <;> try simp
  rw [key, key, div_lt_div_iff_of_pos_right hU]
  exact_mod_cast Iff.rfl

theorem eq_equal (x y : F64) : x.eq y = true ↔ F64.Equal x y := by
  have hU : (2 : ℚ) ^ 1074 ≠ 0 := by positivity
  have key : ∀ (a : Bool) (k : Nat), signedQ a (mag k) = ((F64.signed a k : Int) : ℚ) / 2 ^ 1074 := by
    intro a k; unfold signedQ mag F64.signed; cases a <;> simp [neg_div]
  cases x <;> cases y <;> simp only [F64.eq, F64.Equal, Bool.false_eq_true] <;> try simp
  rw [key, key, div_left_inj' hU]
  exact_mod_cast Iff.rfl

theorem rounds_zero {f : Format} {neg : Bool} {x : F64} (hf : Format.Ok f) (h : f.Rounds neg 0 x) : x = .fin neg 0 := by
  have hb : (0 : ℚ) < f.bound := by
    have := hf.wide
    unfold Format.bound
    have : (2 : ℚ) ^ (f.limit - 1074 - f.bits - 1) < 2 ^ (f.limit - 1074) := by
      apply pow_lt_pow_right₀ (by norm_num); omega
    linarith
  refine rounds_unique h (.inl ⟨hb, 0, rfl, ⟨by positivity, 0, f.step, by simp, by positivity, le_refl _⟩, fun y _ => ?_⟩)
  have h0 : mag 0 = 0 := by simp [mag]
  refine ⟨by rw [h0]; simp, fun _ _ => ⟨0, f.step, by simp, by positivity, le_refl _, .inl rfl, rfl⟩⟩

/-- C42: rounding keeps the order: of two numbers the smaller one is never read as the larger. -/
theorem C42_monotone {n n' : Bool} {q q' : ℚ} {x y : F64} (hx : binary64.Rounds n q x) (hy : binary64.Rounds n' q' y)
    (h0 : 0 ≤ q) (h0' : 0 ≤ q') (h : signedQ n q ≤ signedQ n' q') : F64.Below x y ∨ F64.Equal x y := by
  have tot : y.lt x = false → x ≠ .nan → y ≠ .nan → F64.Below x y ∨ F64.Equal x y := by
    intro h1 h2 h3
    rw [← lt_below, ← eq_equal]
    cases x <;> cases y <;> simp_all [F64.lt, F64.eq]
    · rename_i a b; cases a <;> cases b <;> simp_all
    · omega
  have nn : ∀ {m : Bool} {p : ℚ} {z : F64}, binary64.Rounds m p z → z ≠ .nan := by
    rintro m p z (⟨_, k, rfl, _⟩ | ⟨_, rfl⟩) <;> simp
  refine tot ?_ (nn hx) (nn hy)
  cases n <;> cases n' <;> simp only [signedQ, Bool.false_eq_true, if_false, if_true] at h
  · rcases rounds_mono hx hy h with ⟨k, rfl, ⟨l, rfl, hl⟩ | rfl⟩ | ⟨rfl, rfl⟩ <;> simp [F64.lt, F64.signed]
    exact hl
  · have e1 : q = 0 := by linarith
    have e2 : q' = 0 := by linarith
    subst e1 e2
    rw [rounds_zero ok64 hx, rounds_zero ok64 hy]
    decide
  · rcases hx with ⟨_, k, rfl, _⟩ | ⟨_, rfl⟩ <;> rcases hy with ⟨_, l, rfl, _⟩ | ⟨_, rfl⟩ <;> simp [F64.lt, F64.signed]
  · rcases rounds_mono hy hx (by linarith) with ⟨k, rfl, ⟨l, rfl, hl⟩ | rfl⟩ | ⟨rfl, rfl⟩ <;> simp [F64.lt, F64.signed]
    exact hl

/-- `Below` and `Equal` exclude each other and `Below` is asymmetric. -/
theorem below_asymm {x y : F64} (h : F64.Below x y) : ¬ F64.Below y x ∧ ¬ F64.Equal y x ∧ ¬ F64.Equal x y := by
  cases x <;> cases y <;> simp_all [F64.Below, F64.Equal]
  exact ⟨h.le, h.ne', h.ne⟩

/-- C42: sorting numbers agrees with their numeric values: if `cmp` says less, the number
in the text is less. -/
theorem C42_cmp {a b : Value} {n n' : Bool} {q q' : ℚ} (ha : a.kind = .number) (hb : b.kind = .number)
    (hda : NumDenotes a.json n q) (hdb : NumDenotes b.json n' q') :
    (∃ x y, binary64.Rounds n q x ∧ binary64.Rounds n' q' y ∧
      (a.cmp b = .ok .lt ↔ F64.Below x y) ∧ (b.cmp a = .ok .lt ↔ F64.Below y x)) ∧
    (a.cmp b = .ok .lt → signedQ n q < signedQ n' q') := by
  obtain ⟨x, hx, hxr⟩ := C42_f64 ha hda
  obtain ⟨y, hy, hyr⟩ := C42_f64 hb hdb
  obtain ⟨h1, h2, _⟩ := C26_numbers a b x y ha hb hx hy
  rw [lt_below] at h1 h2
  refine ⟨⟨x, y, hxr, hyr, h1, h2⟩, fun h => ?_⟩
  by_contra hn
  rcases C42_monotone hyr hxr hdb.nonneg hda.nonneg (not_lt.1 hn) with hb | he
  · exact (below_asymm (h1.1 h)).1 hb
  · exact (below_asymm (h1.1 h)).2.1 he

example : (do let a ← parse b!"-1.5e3"; let b ← parse b!"0.25"; a.cmp b) = .ok .lt := by decide +kernel

/-- The comparison with an operator, of two floating point numbers. -/
def Spec.Op.Compares (op : Op) (x y : F64) : Prop :=
  match op with
  | .eq => F64.Equal x y
  | .ne => ¬ F64.Equal x y
  | .lt => F64.Below x y
  | .le => F64.Below x y ∨ F64.Equal x y
  | .gt => F64.Below y x
  | .ge => F64.Below y x ∨ F64.Equal x y
  | .like => False
  | .unlike => False

/-- C42: a query compares the number of an element with a number on the right hand side
as the two nearest binary64 numbers. -/
theorem C42_query {v : Value} {rh t : Bytes} {n n' : Bool} {q q' : ℚ} (hk : v.kind = .number)
    (hd : NumDenotes v.json n q) (hr : Operand rh t) (hd' : NumDenotes t n' q') (op : Op) :
    ∃ x y b, binary64.Rounds n q x ∧ binary64.Rounds n' q' y ∧ queryMatches v op.name rh = .ok b ∧
      (b = true ↔ op.Compares x y) := by
  obtain ⟨x, hx, hxr⟩ := C42_f64 hk hd
  have ht : NoTilde t := by
    intro c hc
    have := numLit_numCh hd'.numLit c (List.mem_of_mem_head? hc)
    unfold NumCh at this
    grind
  have he : v.exists = true := by
    rw [exists_json]
    intro e
    exact (numLit_kindOf hd.numLit).1 e
  refine ⟨x, rawToF64 t, _, hxr, rawToF64_lit hd', C15_number hk he hx hr ht op, ?_⟩
  cases op <;> simp only [Op.holds, Op.Compares, ← lt_below, ← eq_equal] <;> simp [or_comm]

/-- C42: so `<` and `>` hold only when the numbers are really less or greater, `<=`, `>=`
and `=` hold whenever they are at most, at least or equal. -/
theorem C42_query_sound {v : Value} {rh t : Bytes} {n n' : Bool} {q q' : ℚ} (hk : v.kind = .number)
    (hd : NumDenotes v.json n q) (hr : Operand rh t) (hd' : NumDenotes t n' q') :
    (queryMatches v b!"<" rh = .ok true → signedQ n q < signedQ n' q') ∧
    (queryMatches v b!">" rh = .ok true → signedQ n' q' < signedQ n q) ∧
    (queryMatches v b!"!=" rh = .ok true → signedQ n q ≠ signedQ n' q') ∧
    (signedQ n q ≤ signedQ n' q' → queryMatches v b!"<=" rh = .ok true) ∧
    (signedQ n' q' ≤ signedQ n q → queryMatches v b!">=" rh = .ok true) ∧
    (signedQ n q = signedQ n' q' → queryMatches v b!"=" rh = .ok true) := by
  have H := fun op => C42_query hk hd hr hd' op
  have h0 := hd.nonneg
  have h0' := hd'.nonneg
  have eqs : ∀ {x y : F64}, F64.Equal x y → F64.Equal y x := by
    intro x y h
    cases x <;> cases y <;> simp_all [F64.Equal]
  refine ⟨fun h => ?_, fun h => ?_, fun h => ?_, fun h => ?_, fun h => ?_, fun h => ?_⟩
  · obtain ⟨x, y, b, hx, hy, hb, hc⟩ := H .lt
    by_contra hn
    rw [show Op.lt.name = b!"<" from rfl, h] at hb
    have hB : F64.Below x y := hc.1 (by simpa using hb.symm)
    rcases C42_monotone hy hx h0' h0 (not_lt.1 hn) with k | k
    · exact (below_asymm hB).1 k
    · exact (below_asymm hB).2.1 k
  · obtain ⟨x, y, b, hx, hy, hb, hc⟩ := H .gt
    by_contra hn
    rw [show Op.gt.name = b!">" from rfl, h] at hb
    have hB : F64.Below y x := hc.1 (by simpa using hb.symm)
    rcases C42_monotone hx hy h0 h0' (not_lt.1 hn) with k | k
    · exact (below_asymm hB).1 k
    · exact (below_asymm hB).2.1 k
  · intro e
    obtain ⟨x, y, b, hx, hy, hb, hc⟩ := H .ne
    rw [show Op.ne.name = b!"!=" from rfl, h] at hb
    have hB : ¬ F64.Equal x y := hc.1 (by simpa using hb.symm)
    rcases C42_monotone hx hy h0 h0' e.le with k | k
    · rcases C42_monotone hy hx h0' h0 e.ge with k' | k'
      · exact (below_asymm k).1 k'
      · exact (below_asymm k).2.1 k'
    · exact hB k
  · obtain ⟨x, y, b, hx, hy, hb, hc⟩ := H .le
    rw [show b!"<=" = Op.le.name from rfl, hb, hc.2 (C42_monotone hx hy h0 h0' h)]
  · obtain ⟨x, y, b, hx, hy, hb, hc⟩ := H .ge
    rw [show b!">=" = Op.ge.name from rfl, hb, hc.2 ((C42_monotone hy hx h0' h0 h).imp id eqs)]
  · obtain ⟨x, y, b, hx, hy, hb, hc⟩ := H .eq
    have : F64.Equal x y := by
      rcases C42_monotone hx hy h0 h0' h.le with k | k
      · rcases C42_monotone hy hx h0' h0 h.ge with k' | k'
        · exact absurd k' (below_asymm k).1
        · exact absurd k' (below_asymm k).2.1
      · exact k
    rw [show b!"=" = Op.eq.name from rfl, hb, hc.2 this]

/-! ### Integers -/

theorem toI64_truncated (x : F64) : F64.Truncated (-2 ^ 63) (2 ^ 63 - 1) x x.toI64 := by
  cases x with
  | nan => rfl
  | inf n => cases n <;> rfl
  | fin n k =>
    have hU : (0 : ℚ) < 2 ^ 1074 := by positivity
    have hU' : 0 < F64.unit := by unfold F64.unit; positivity
    have hc : ((F64.unit : Nat) : ℚ) = 2 ^ 1074 := Nat.cast_pow 2 1074
    refine ⟨k / F64.unit, ?_, ?_, ?_⟩
    · unfold mag
      rw [le_div_iff₀ hU, ← hc]
      exact_mod_cast Nat.div_mul_le_self k F64.unit
    · unfold mag
      rw [div_lt_iff₀ hU, ← hc]
      have := Nat.lt_div_mul_add (a := k) hU'
      rw [add_mul, one_mul]
      exact_mod_cast this
    · simp only [F64.toI64]
      generalize k / F64.unit = t
      cases n
      · simp only [Bool.false_eq_true, if_false]; split <;> omega
      · simp only [if_true]; split <;> omega

theorem toU64_truncated (x : F64) : F64.Truncated 0 (2 ^ 64 - 1) x x.toU64 := by
  cases x with
  | nan => rfl
  | inf n => cases n <;> rfl
  | fin n k =>
    have hU : (0 : ℚ) < 2 ^ 1074 := by positivity
    have hU' : 0 < F64.unit := by unfold F64.unit; positivity
    have hc : ((F64.unit : Nat) : ℚ) = 2 ^ 1074 := Nat.cast_pow 2 1074
    refine ⟨k / F64.unit, ?_, ?_, ?_⟩
    · unfold mag
      rw [le_div_iff₀ hU, ← hc]
      exact_mod_cast Nat.div_mul_le_self k F64.unit
    · unfold mag
      rw [div_lt_iff₀ hU, ← hc]
      have := Nat.lt_div_mul_add (a := k) hU'
      rw [add_mul, one_mul]
      exact_mod_cast this
    · simp only [F64.toU64]
      generalize k / F64.unit = t
      cases n
      · simp only [Bool.false_eq_true, if_false]; split <;> omega
      · simp only [if_true]; omega

theorem decDigits_none {s : Bytes} {c : UInt8} (hc : c ∈ s) (hd : ¬ IsDigit c) : ∀ a, decDigits a s = none := by
  induction s with
  | nil => simp at hc
  | cons d r ih =>
    intro a
    unfold decDigits
    split
    · rename_i h
      rcases List.mem_cons.1 hc with rfl | hc
      · exact absurd (by unfold isDigit at h; unfold IsDigit; simpa using h) hd
      · exact ih hc _
    · rfl

theorem parseNat_none {s : Bytes} {c : UInt8} (hc : c ∈ s) (hd : ¬ IsDigit c) : parseNat s = none := by
  unfold parseNat
  rw [decDigits_none hc hd]
  simp

/-- A number either has a fraction or an exponent, or is a sign and digits. -/
theorem denotes_cases {t : Bytes} {neg : Bool} {q : ℚ} (h : NumDenotes t neg q) :
    ∃ r, t = (if neg then [c! '-'] else []) ++ r ∧ (∃ c r', r = c :: r' ∧ IsDigit c) ∧
      ((∃ c ∈ r, c ∈ b!".eE") ∨ ((∀ c ∈ r, IsDigit c) ∧ q = decVal r)) := by
  obtain ⟨sg, ip, fp, ep, rfl, rfl, hi, hf, he, rfl⟩ := h
  obtain ⟨h1, h2⟩ := intPart_digits hi
  refine ⟨_, rfl, ?_, ?_⟩
  · cases ip with
    | nil => exact absurd rfl h1
    | cons c r => exact ⟨c, _, rfl, h2 c (by simp)⟩
  · rcases hf with rfl | ⟨ds, rfl, _⟩
    · rcases he with rfl | ⟨e, sg, ds, rfl, he, _⟩
      · right
        simp only [List.append_nil, List.drop_nil, List.length_nil, expVal]
        exact ⟨h2, by simp⟩
      · left
        exact ⟨e, by simp, by rcases he with rfl | rfl <;> decide⟩
    · left
      exact ⟨c! '.', by simp, by decide⟩

/-- The parts of a number that are not an integer in a range: a fraction or an exponent
is written, or the absolute value is more than `hi`. -/
def NotInteger (t : Bytes) (q : ℚ) (hi : ℚ) : Prop := (∃ c ∈ t, c ∈ b!".eE") ∨ hi < q

theorem frac_in {neg : Bool} {r : Bytes} (h : ∃ c ∈ (if neg then [c! '-'] else []) ++ r, c ∈ b!".eE") :
    ∃ c ∈ r, ¬ IsDigit c := by
  obtain ⟨c, hc, hm⟩ := h
  simp only [List.mem_cons, List.not_mem_nil, or_false] at hm
  rcases List.mem_append.1 hc with hc | hc
  · cases neg
    · simp at hc
    · simp at hc; subst hc; exact absurd hm (by decide)
  · exact ⟨c, hc, by rcases hm with rfl | rfl | rfl <;> decide⟩

theorem parseI64_none {t : Bytes} {neg : Bool} {q : ℚ} (h : NumDenotes t neg q)
    (hn : NotInteger t q (if neg then 2 ^ 63 else 2 ^ 63 - 1)) : parseI64 t = none := by
  obtain ⟨r, rfl, ⟨c, r', rfl, hd⟩, hr⟩ := denotes_cases h
  have key : parseNat (c :: r') = none ∨ ∃ n, parseNat (c :: r') = some n ∧ (if neg then 2 ^ 63 else 2 ^ 63 - 1 : Nat) < n := by
    rcases hn with hn | hn
    · obtain ⟨d, h1, h2⟩ := frac_in hn
      exact .inl (parseNat_none h1 h2)
    · rcases hr with ⟨d, h1, h2⟩ | ⟨h1, h2⟩
      · left
        refine parseNat_none h1 ?_
        simp only [List.mem_cons, List.not_mem_nil, or_false] at h2
        rcases h2 with rfl | rfl | rfl <;> decide
      · right
        refine ⟨_, parseNat_eq (by simp) h1, ?_⟩
        rw [h2] at hn
        cases neg
        · simp only [Bool.false_eq_true, if_false] at hn ⊢
          have : ((2 ^ 63 - 1 : Nat) : ℚ) < (decVal (c :: r') : ℚ) := by norm_num at hn ⊢; exact hn
          exact_mod_cast this
        · simp only [if_true] at hn ⊢
          exact_mod_cast hn
  have hc1 : c ≠ c! '-' := by intro e; subst e; revert hd; decide
  have hc2 : c ≠ c! '+' := by intro e; subst e; revert hd; decide
  unfold parseI64
  cases neg
  · simp only [Bool.false_eq_true, if_false, List.nil_append] at key ⊢
    rw [if_neg hc1, if_neg hc2]
    rcases key with e | ⟨n, e, h⟩
    · rw [e]
    · rw [e]; simp only; rw [if_neg (by omega)]
  · simp only [if_true, List.cons_append, List.nil_append] at key ⊢
    rcases key with e | ⟨n, e, h⟩
    · rw [e]
    · rw [e]; simp only; rw [if_neg (by omega)]

theorem parseU64_none {t : Bytes} {neg : Bool} {q : ℚ} (h : NumDenotes t neg q)
    (hn : neg = true ∨ NotInteger t q (2 ^ 64 - 1)) : parseU64 t = none := by
  obtain ⟨r, rfl, ⟨c, r', rfl, hd⟩, hr⟩ := denotes_cases h
  have hc2 : c ≠ c! '+' := by intro e; subst e; revert hd; decide
  unfold parseU64
  cases neg
  · have key : parseNat (c :: r') = none ∨ ∃ n, parseNat (c :: r') = some n ∧ (2 ^ 64 - 1 : Nat) < n := by
      rcases hn with hn | hn | hn
      · simp at hn
      · obtain ⟨d, h1, h2⟩ := frac_in hn
        exact .inl (parseNat_none h1 h2)
      · rcases hr with ⟨d, h1, h2⟩ | ⟨h1, h2⟩
        · left
          refine parseNat_none h1 ?_
          simp only [List.mem_cons, List.not_mem_nil, or_false] at h2
          rcases h2 with rfl | rfl | rfl <;> decide
        · right
          refine ⟨_, parseNat_eq (by simp) h1, ?_⟩
          rw [h2] at hn
          have : ((2 ^ 64 - 1 : Nat) : ℚ) < (decVal (c :: r') : ℚ) := by norm_num at hn ⊢; exact hn
          exact_mod_cast this
    simp only [Bool.false_eq_true, if_false, List.nil_append] at key ⊢
    rw [if_neg hc2]
    rcases key with e | ⟨n, e, h⟩
    · rw [e]
    · rw [e]; simp only; rw [if_neg (by omega)]
  · simp only [if_true, List.cons_append, List.nil_append]
    rw [if_neg (by decide), parseNat_none (c := c! '-') (by simp) (by decide)]

/-- C42: `i64()` of a number that is not written as an integer, or is out of range, is
`f64()` of it truncated toward zero and brought into range. -/
theorem C42_i64 {v : Value} {neg : Bool} {q : ℚ} (hk : v.kind = .number) (hd : NumDenotes v.json neg q)
    (hn : NotInteger v.json q (if neg then 2 ^ 63 else 2 ^ 63 - 1)) :
    ∃ x n, binary64.Rounds neg q x ∧ v.i64 = .ok n ∧ F64.Truncated (-2 ^ 63) (2 ^ 63 - 1) x n := by
  refine ⟨rawToF64 v.json, (rawToF64 v.json).toI64, rawToF64_lit hd, ?_, toI64_truncated _⟩
  unfold Value.i64
  rw [hk]
  simp only [rawToI64]
  rw [parseI64_none hd hn]
  rfl

/-- C42: the same for `u64()`; negative numbers become 0. -/
theorem C42_u64 {v : Value} {neg : Bool} {q : ℚ} (hk : v.kind = .number) (hd : NumDenotes v.json neg q)
    (hn : neg = true ∨ NotInteger v.json q (2 ^ 64 - 1)) :
    ∃ x n, binary64.Rounds neg q x ∧ v.u64 = .ok n ∧ F64.Truncated 0 (2 ^ 64 - 1) x n := by
  refine ⟨rawToF64 v.json, (rawToF64 v.json).toU64, rawToF64_lit hd, ?_, toU64_truncated _⟩
  unfold Value.u64
  rw [hk]
  simp only [rawToU64]
  rw [parseU64_none hd hn]
  rfl

/-- C42: otherwise `i64()` and `u64()` are exact. -/
theorem C42_exact {v : Value} {neg : Bool} {q : ℚ} (hk : v.kind = .number) (hd : NumDenotes v.json neg q) :
    (¬ NotInteger v.json q (if neg then 2 ^ 63 else 2 ^ 63 - 1) → ∃ n : Int, v.i64 = .ok n ∧ (n : ℚ) = signedQ neg q) ∧
    (neg = false → ¬ NotInteger v.json q (2 ^ 64 - 1) → ∃ n : Nat, v.u64 = .ok n ∧ (n : ℚ) = q) := by
  unfold Value.i64 Value.u64
  rw [hk]
  simp only [rawToI64, rawToU64]
  generalize v.json = t at hd ⊢
  obtain ⟨r, rfl, ⟨c, r', rfl, hdg⟩, hr⟩ := denotes_cases hd
  have hc1 : c ≠ c! '-' := by intro e; subst e; revert hdg; decide
  have hc2 : c ≠ c! '+' := by intro e; subst e; revert hdg; decide
  constructor
  · intro hn
    have hr := hr.resolve_left (fun ⟨d, h1, h2⟩ => hn (.inl ⟨d, by simp [List.mem_append]; right; simpa using h1, h2⟩))
    have hle : q ≤ if neg then 2 ^ 63 else 2 ^ 63 - 1 := not_lt.1 (fun h => hn (.inr h))
    obtain ⟨hdig, rfl⟩ := hr
    have hp := parseNat_eq (ds := c :: r') (by simp) hdig
    unfold parseI64
    cases neg
    · simp only [Bool.false_eq_true, if_false, List.nil_append] at hle ⊢
      rw [if_neg hc1, if_neg hc2, hp]
      have : decVal (c :: r') ≤ 9223372036854775807 := by
        have : ((decVal (c :: r') : Nat) : ℚ) ≤ ((9223372036854775807 : Nat) : ℚ) := by norm_num at hle ⊢; exact hle
        exact_mod_cast this
      simp only
      rw [if_pos this]
      exact ⟨_, rfl, by simp [signedQ]⟩
    · simp only [if_true, List.cons_append, List.nil_append] at hle ⊢
      rw [hp]
      have : decVal (c :: r') ≤ 9223372036854775808 := by
        have : ((decVal (c :: r') : Nat) : ℚ) ≤ ((9223372036854775808 : Nat) : ℚ) := by norm_num at hle ⊢; exact hle
        exact_mod_cast this
      simp only
      rw [if_pos this]
      exact ⟨_, rfl, by simp [signedQ]⟩
  · rintro rfl hn
    have hr := hr.resolve_left (fun ⟨d, h1, h2⟩ => hn (.inl ⟨d, by simpa using h1, h2⟩))
    have hle : q ≤ 2 ^ 64 - 1 := not_lt.1 (fun h => hn (.inr h))
    obtain ⟨hdig, rfl⟩ := hr
    have hp := parseNat_eq (ds := c :: r') (by simp) hdig
    unfold parseU64
    simp only [Bool.false_eq_true, if_false, List.nil_append]
    rw [if_neg hc2, hp]
    have : decVal (c :: r') ≤ 18446744073709551615 := by
      have : ((decVal (c :: r') : Nat) : ℚ) ≤ ((18446744073709551615 : Nat) : ℚ) := by norm_num at hle ⊢; exact hle
      exact_mod_cast this
    simp only
    rw [if_pos this]
    exact ⟨_, rfl, rfl⟩

example : NotInteger b!"-12.5e1" 125 (2 ^ 63) := .inl ⟨c! 'e', by decide, by decide⟩
example : (parse b!"-12.75e0" >>= Value.i64) = .ok (-12) ∧ (parse b!"-0.9" >>= Value.u64) = .ok 0 ∧
    (parse b!"1e3" >>= Value.u64) = .ok 1000 ∧ (parse b!"9223372036854775808" >>= Value.i64) = .ok 9223372036854775807 ∧
    (parse b!"-0" >>= Value.i64) = .ok 0 := by decide +kernel

/-! ### `f32()` -/

/-- C42: `f32()` is the nearest binary32 number to `f64()`. -/
theorem C42_f32 (v : Value) :
    (∀ neg k, v.f64 = .ok (.fin neg k) → ∃ y, v.f32 = .ok y ∧ binary32.Rounds neg (mag k) y) ∧
    (∀ neg, v.f64 = .ok (.inf neg) → v.f32 = .ok (.inf neg)) ∧ (v.f64 = .ok .nan → v.f32 = .ok .nan) := by
  refine ⟨fun neg k h => ⟨_, by unfold Value.f32; rw [h]; rfl, toF32_rounds neg k⟩, fun neg h => ?_, fun h => ?_⟩ <;>
    (unfold Value.f32; rw [h]; rfl)

theorem has_mul {f : Format} {m a : Nat} (hm : m < 2 ^ f.bits) (hs : f.step ≤ a) (hl : f.bits + a ≤ f.limit) :
    f.Has (m * 2 ^ a) :=
  ⟨calc m * 2 ^ a < 2 ^ f.bits * 2 ^ a := Nat.mul_lt_mul_of_pos_right hm (Nat.two_pow_pos _)
    _ = 2 ^ (f.bits + a) := (pow_add ..).symm
    _ ≤ 2 ^ f.limit := Nat.pow_le_pow_right (by omega) hl, m, a, rfl, hm, hs⟩

/-- `f32()` is not always the nearest binary32 number to the number in the text: it rounds
twice. The text is a little more than halfway between `1` and `1 + 2^-23`, `f64()` is
exactly halfway, and `f32()` is `1`. -/
theorem C42_f32_twice :
    NumDenotes b!"1.00000005960464477539062500001" false (100000005960464477539062500001 / 10 ^ 29) ∧
    (parse b!"1.00000005960464477539062500001" >>= Value.f32) = .ok (.fin false F64.unit) ∧
    ¬ binary32.Rounds false (100000005960464477539062500001 / 10 ^ 29) (.fin false F64.unit) := by
  refine ⟨⟨[], b!"1", b!".00000005960464477539062500001", [], rfl, rfl,
    .inr ⟨c! '1', [], rfl, by decide, by decide, by decide⟩,
    .inr ⟨b!"00000005960464477539062500001", rfl, by decide, by decide⟩, .inl rfl, ?_⟩, by decide +kernel, ?_⟩
  · rw [show decVal (b!"1" ++ (b!".00000005960464477539062500001").drop 1) = 100000005960464477539062500001 by decide,
      show expVal [] = 0 by decide, show ((b!".00000005960464477539062500001").drop 1).length = 29 by decide]
    norm_num
  · rintro (⟨_, k, hk, _, h⟩ | ⟨_, h⟩)
    · simp only [F64.fin.injEq, true_and] at hk
      subst hk
      have hU : (2 : ℚ) ^ 1074 ≠ 0 := by positivity
      have hh : binary32.Has ((2 ^ 23 + 1) * 2 ^ 1051) := has_mul (by decide) (by decide) (by decide)
      have h1 : mag F64.unit = 1 := by
        unfold mag F64.unit
        rw [Nat.cast_pow]
        exact div_self hU
      have h2 : mag ((2 ^ 23 + 1) * 2 ^ 1051) = 1 + 1 / 2 ^ 23 := by
        unfold mag
        rw [Nat.cast_mul, Nat.cast_pow, show (1074 : Nat) = 1051 + 23 from rfl, pow_add,
          show ((2 : Nat) : ℚ) = 2 by norm_num]
        have : (2 : ℚ) ^ 1051 ≠ 0 := by positivity
        generalize (2 : ℚ) ^ 1051 = u at this
        push_cast
        field_simp
        norm_num
      have := (h _ hh).1
      rw [h1, h2] at this
      norm_num [abs_le, le_abs, abs_of_neg, abs_of_pos] at this
    · simp at h

end Gjson
