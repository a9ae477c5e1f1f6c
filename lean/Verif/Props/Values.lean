import Verif.SpecQuery
import Verif.Lemmas.Order
import Verif.Lemmas.Enum
import Verif.Lemmas.Usable
/-
C20, C24, C25, C26, C39 and the part of C05 that is about `parse`: the accessors
of `Value`.
-/
namespace Gjson
open Spec

/-! ### C20 -/

/-- C20: `exists()` is true exactly when `json()` is non-empty. -/
theorem C20_exists_iff_json (v : Value) : v.exists = true ↔ v.json ≠ [] := exists_json

/-- C20: the default value is neutral. -/
theorem C20_default_neutral :
    Value.default.exists = false ∧ Value.default.kind = .null ∧ Value.default.json = [] ∧
    Value.default.str = .ok [] ∧ Value.default.i64 = .ok 0 ∧ Value.default.u64 = .ok 0 ∧
    Value.default.i32 = .ok 0 ∧ Value.default.i16 = .ok 0 ∧ Value.default.i8 = .ok 0 ∧
    Value.default.u32 = .ok 0 ∧ Value.default.u16 = .ok 0 ∧ Value.default.u8 = .ok 0 ∧
    Value.default.f64 = .ok (.fin false 0) ∧ Value.default.bool = .ok false ∧ Value.default.array = .ok [] := by
  decide +kernel

/-- C20: `each()` on a value that does not exist calls nothing, whatever the callback. -/
theorem C20_each_missing {σ : Type} (v : Value) (h : v.exists = false)
    (f : σ → Value → Value → Res (σ × Bool)) (st : σ) : v.each f st = .ok st := by
  unfold Value.each; rw [h]; rfl

/-- C20: `array()` on a value that does not exist is empty. -/
theorem C20_array_missing (v : Value) (h : v.exists = false) : v.array = .ok [] := by
  unfold Value.array
  split
  · exact C20_each_missing v h _ _
  · rfl

/-- Non-vacuous: `parse` of an unclosed string gives a value of kind String that
does not exist, and `parse` of blanks the default value. -/
example : (∃ v, parse b!"\"abc" = .ok v ∧ v.exists = false ∧ v.kind = .string) ∧
    parse b!"  " = .ok Value.default :=
  ⟨⟨_, rfl, by decide +kernel⟩, by decide +kernel⟩

/-! ### C24 -/

/-- A number of digits only: the whole `i64` range. -/
theorem rawToI64_numeral {n : Int} (h1 : -9223372036854775808 ≤ n) (h2 : n ≤ 9223372036854775807) :
    rawToI64 (intNumeral n) = n := by
  unfold rawToI64; rw [parseI64_numeral h1 h2]; rfl

theorem rawToU64_numeral {n : Nat} (h : n ≤ 18446744073709551615) : rawToU64 (numeral n) = n := by
  unfold rawToU64; rw [parseU64_numeral h]; rfl

theorem intNumeral_strBody (n : Int) : StrBody (intNumeral n) ∧ c! '\\' ∉ intNumeral n := by
  have hd : ∀ ds : Bytes, (∀ c ∈ ds, IsDigit c) → StrBody ds ∧ c! '\\' ∉ ds := by
    intro ds
    induction ds with
    | nil => intro _; exact ⟨.nil, by simp⟩
    | cons c r ih =>
      intro h
      have hc := h c (by simp)
      obtain ⟨h1, h2⟩ := ih (fun x hx => h x (by simp [hx]))
      unfold IsDigit at hc
      refine ⟨.plain (by grind) (by grind) (by grind) h1, ?_⟩
      simp only [List.mem_cons, not_or]
      exact ⟨by grind, h2⟩
  obtain ⟨h1, h2⟩ := hd _ (numeral_spec n.natAbs).2.1
  unfold intNumeral
  split
  · exact ⟨.plain (by decide) (by decide) (by decide) h1, by simp only [List.mem_cons, not_or]; exact ⟨by decide, h2⟩⟩
  · exact ⟨h1, h2⟩

theorem numeral_int (n : Nat) : numeral n = intNumeral n := by
  unfold intNumeral; rw [if_neg (by omega)]; simp

theorem strForNum_quoted {v : Value} {b : Bytes} (hb : StrBody b) (hb2 : c! '\\' ∉ b)
    (hj : v.json = c! '"' :: (b ++ [c! '"'])) : v.strForNum = .ok b := by
  unfold Value.strForNum
  rw [hj]
  split
  · rw [unescape_quoted, unesc_body hb hb2]
  · exact stripQuotes_quoted b

/-- C24: every Value of kind Number whose text is the numeral of an `i64` reads as that `i64`. -/
theorem C24_i64_number (v : Value) (n : Int) (h1 : -2^63 ≤ n) (h2 : n < 2^63)
    (hk : v.kind = .number) (hj : v.json = intNumeral n) : v.i64 = .ok n := by
  unfold Value.i64
  rw [hk, hj, rawToI64_numeral (by omega) (by omega)]

/-- C24: the same for a Value of kind String with the numeral between the quotes. -/
theorem C24_i64_string (v : Value) (n : Int) (h1 : -2^63 ≤ n) (h2 : n < 2^63)
    (hk : v.kind = .string) (hj : v.json = c! '"' :: (intNumeral n ++ [c! '"'])) : v.i64 = .ok n := by
  unfold Value.i64
  rw [hk]
  simp only
  rw [strForNum_quoted (intNumeral_strBody n).1 (intNumeral_strBody n).2 hj, ok_bind,
    rawToI64_numeral (by omega) (by omega)]

/-- C24: numerals of `u64`. -/
theorem C24_u64_number (v : Value) (n : Nat) (h2 : n < 2^64)
    (hk : v.kind = .number) (hj : v.json = numeral n) : v.u64 = .ok n := by
  unfold Value.u64
  rw [hk, hj, rawToU64_numeral (by omega)]

/-- C24: numerals of `u64` in a string. -/
theorem C24_u64_string (v : Value) (n : Nat) (h2 : n < 2^64)
    (hk : v.kind = .string) (hj : v.json = c! '"' :: (numeral n ++ [c! '"'])) : v.u64 = .ok n := by
  unfold Value.u64
  rw [hk]
  simp only
  rw [numeral_int] at hj
  rw [strForNum_quoted (intNumeral_strBody n).1 (intNumeral_strBody n).2 hj, ok_bind, ← numeral_int,
    rawToU64_numeral (by omega)]

theorem numLit_kindOf {t : Bytes} (h : NumLit t) : t ≠ [] ∧ kindOf t = .number := by
  obtain ⟨c, q, rfl, hs⟩ := NumLit.cons h
  refine ⟨by simp, ?_⟩
  simp only [kindOf]
  rcases hs with hs | hs
  · subst hs; decide
  · unfold IsDigit at hs
    rw [if_neg (by grind), if_neg (by grind), if_neg (by grind), if_neg (by grind), if_neg (by grind), if_neg (by grind)]

/-- C24 end to end: parsing the numeral of `n`, with whitespace around it, as a
number or as a string, gives a value whose `i64()` is `n`. -/
theorem C24_parse_i64 (n : Int) (h1 : -2^63 ≤ n) (h2 : n < 2^63) (w1 w2 : Bytes) (hw1 : Ws w1) (hw2 : Ws w2) :
    (∃ v, parse (w1 ++ (intNumeral n ++ w2)) = .ok v ∧ v.kind = .number ∧ v.i64 = .ok n) ∧
    (∃ v, parse (w1 ++ ((c! '"' :: (intNumeral n ++ [c! '"'])) ++ w2)) = .ok v ∧ v.kind = .string ∧ v.i64 = .ok n) := by
  have hn := intNumeral_numLit n
  obtain ⟨hne, hkn⟩ := numLit_kindOf hn
  constructor
  · refine ⟨leafVal (some (0 + w1.length)) (intNumeral n), ?_, ?_, ?_⟩
    · rw [parse_eq, pParse_ws hw1, pParse_scalar (.num hn) (Follow.ws' hw2) (by rw [hkn]; decide)]
    · rw [leafVal_kind hne, hkn]
    · exact C24_i64_number _ n h1 h2 (by rw [leafVal_kind hne, hkn]) (leafVal_json _ _)
  · have hs : StrLit (c! '"' :: (intNumeral n ++ [c! '"'])) := ⟨_, (intNumeral_strBody n).1, rfl⟩
    refine ⟨leafVal (some (0 + w1.length)) (c! '"' :: (intNumeral n ++ [c! '"'])), ?_, ?_, ?_⟩
    · rw [parse_eq, pParse_ws hw1, pParse_scalar (.str hs) (Follow.ws' hw2) (by simp [kindOf])]
    · rw [leafVal_kind (by simp)]; rfl
    · exact C24_i64_string _ n h1 h2 (by rw [leafVal_kind (by simp)]; rfl) (leafVal_json _ _)

/-- C24 end to end for `u64()`. -/
theorem C24_parse_u64 (n : Nat) (h2 : n < 2^64) (w1 w2 : Bytes) (hw1 : Ws w1) (hw2 : Ws w2) :
    (∃ v, parse (w1 ++ (numeral n ++ w2)) = .ok v ∧ v.kind = .number ∧ v.u64 = .ok n) ∧
    (∃ v, parse (w1 ++ ((c! '"' :: (numeral n ++ [c! '"'])) ++ w2)) = .ok v ∧ v.kind = .string ∧ v.u64 = .ok n) := by
  have hn : NumLit (numeral n) := by rw [numeral_int]; exact intNumeral_numLit n
  have hb : StrBody (numeral n) := by rw [numeral_int]; exact (intNumeral_strBody n).1
  obtain ⟨hne, hkn⟩ := numLit_kindOf hn
  constructor
  · refine ⟨leafVal (some (0 + w1.length)) (numeral n), ?_, ?_, ?_⟩
    · rw [parse_eq, pParse_ws hw1, pParse_scalar (.num hn) (Follow.ws' hw2) (by rw [hkn]; decide)]
    · rw [leafVal_kind hne, hkn]
    · exact C24_u64_number _ n h2 (by rw [leafVal_kind hne, hkn]) (leafVal_json _ _)
  · have hs : StrLit (c! '"' :: (numeral n ++ [c! '"'])) := ⟨_, hb, rfl⟩
    refine ⟨leafVal (some (0 + w1.length)) (c! '"' :: (numeral n ++ [c! '"'])), ?_, ?_, ?_⟩
    · rw [parse_eq, pParse_ws hw1, pParse_scalar (.str hs) (Follow.ws' hw2) (by simp [kindOf])]
    · rw [leafVal_kind (by simp)]; rfl
    · exact C24_u64_string _ n h2 (by rw [leafVal_kind (by simp)]; rfl) (leafVal_json _ _)

/-- The numerals are what one expects, and they include the ends of the ranges,
where a conversion through `f64` would be inexact. -/
example : intNumeral (-9223372036854775808) = b!"-9223372036854775808" ∧
    intNumeral 9007199254740993 = b!"9007199254740993" ∧
    numeral 18446744073709551615 = b!"18446744073709551615" ∧ numeral 0 = b!"0" := by decide +kernel

/-! ### C25 -/

/-- C25: `i16`, `i8`, `u32`, `u16` and `u8` return the nearest value of their range. -/
theorem C25_saturate_partial (v : Value) :
    (∀ x, v.i64 = .ok x → v.i16 = .ok (clamp (-2^15) (2^15 - 1) x) ∧ v.i8 = .ok (clamp (-2^7) (2^7 - 1) x)) ∧
    (∀ x, v.u64 = .ok x → v.u32 = .ok (min (2^32 - 1) x) ∧ v.u16 = .ok (min (2^16 - 1) x) ∧
      v.u8 = .ok (min (2^8 - 1) x)) := by
  refine ⟨fun x hx => ⟨?_, ?_⟩, fun x hx => ⟨?_, ?_, ?_⟩⟩
  · unfold Value.i16
    rw [hx, ok_bind]
    congr 1
    have hw : ∀ y : Int, -32768 ≤ y → y < 32768 → wrapSigned 16 y = y := by
      intro y h1 h2; unfold wrapSigned; exact Int.bmod_eq_of_le (by omega) (by omega)
    rw [hw _ (by split <;> omega) (by split <;> omega)]
    unfold clamp; split <;> omega
  · unfold Value.i8
    rw [hx, ok_bind]
    congr 1
    have hw : ∀ y : Int, -128 ≤ y → y < 128 → wrapSigned 8 y = y := by
      intro y h1 h2; unfold wrapSigned; exact Int.bmod_eq_of_le (by omega) (by omega)
    rw [hw _ (by split <;> omega) (by split <;> omega)]
    unfold clamp; split <;> omega
  · unfold Value.u32 wrapUnsigned
    rw [hx, ok_bind]
    congr 1
    split <;> omega
  · unfold Value.u16 wrapUnsigned
    rw [hx, ok_bind]
    congr 1
    split <;> omega
  · unfold Value.u8 wrapUnsigned
    rw [hx, ok_bind]
    congr 1
    split <;> omega

/-- C25: what `i32()` does for every value: it is the nearest value of the range
for `i64() < 2^31`, and `-2^31` otherwise. -/
theorem C25_i32_partial (v : Value) (x : Int) (hx : v.i64 = .ok x) :
    v.i32 = .ok (if x < 2^31 then clamp (-2^31) (2^31 - 1) x else -2^31) := by
  unfold Value.i32
  rw [hx, ok_bind]
  congr 1
  have hw : ∀ y : Int, -2147483648 ≤ y → y < 2147483648 → wrapSigned 32 y = y := by
    intro y h1 h2; unfold wrapSigned; exact Int.bmod_eq_of_le (by omega) (by omega)
  have hb : wrapSigned 32 2147483648 = -2147483648 := by decide
  unfold clamp
  split
  · rw [hw _ (by omega) (by omega), if_pos (by omega)]; omega
  split
  · rw [hb, if_neg (by omega)]; omega
  · by_cases h : x = 2147483648
    · subst h; rw [hb]; decide
    · rw [hw _ (by omega) (by omega), if_pos (by omega)]; omega

/-- C25 is false as stated: `i32()` of 2147483648 is -2147483648, the farthest
value of the range (lib.rs:274 compares with 2147483648 instead of 2147483647). -/
theorem C25_false_i32 : (parse b!"2147483648" >>= Value.i64) = .ok 2147483648 ∧
    (parse b!"2147483648" >>= Value.i32) = .ok (-2147483648) ∧
    (parse b!"9000000000" >>= Value.i32) = .ok (-2147483648) ∧
    clamp (-2^31) (2^31 - 1) 2147483648 = 2147483647 := by decide +kernel

theorem toI64_range (x : F64) : -2^63 ≤ x.toI64 ∧ x.toI64 < 2^63 := by
  cases x with
  | nan => decide
  | inf n => cases n <;> decide
  | fin n k =>
    simp only [F64.toI64]
    generalize k / F64.unit = t
    cases n
    · simp only [Bool.false_eq_true, if_false]; split <;> omega
    · simp only [if_true]; split <;> omega

theorem toU64_range (x : F64) : x.toU64 < 2^64 := by
  cases x with
  | nan => decide
  | inf n => cases n <;> decide
  | fin n k =>
    simp only [F64.toU64]
    generalize k / F64.unit = t
    cases n
    · simp only [Bool.false_eq_true, if_false]; split <;> omega
    · simp

theorem rawToI64_range (s : Bytes) : -2^63 ≤ rawToI64 s ∧ rawToI64 s < 2^63 := by
  unfold rawToI64
  cases h : parseI64 s with
  | none => exact toI64_range _
  | some x =>
    simp only [Option.getD_some]
    unfold parseI64 at h
    split at h
    · simp at h
    · split at h
      · split at h
        · split at h
          · simp at h; omega
          · simp at h
        · simp at h
      · split at h
        · split at h
          · simp at h; omega
          · simp at h
        · simp at h

theorem rawToU64_range (s : Bytes) : rawToU64 s < 2^64 := by
  unfold rawToU64
  cases h : parseU64 s with
  | none => exact toU64_range _
  | some x =>
    simp only [Option.getD_some]
    unfold parseU64 at h
    split at h
    · simp at h
    · split at h
      · split at h
        · simp at h; omega
        · simp at h
      · simp at h

/-- C25: `i64()` and `u64()` themselves are in range, for every value (also for
numbers such as `1e400` or `-5`). -/
theorem C25_range (v : Value) :
    (∀ x, v.i64 = .ok x → -2^63 ≤ x ∧ x < 2^63) ∧ (∀ x, v.u64 = .ok x → x < 2^64) := by
  constructor
  · intro x h
    unfold Value.i64 at h
    split at h
    · simp at h; omega
    · obtain ⟨s, _, h⟩ := bind_eq_ok.1 h
      simp at h; subst h; exact rawToI64_range s
    · simp at h; subst h; exact rawToI64_range _
    · simp at h; omega
  · intro x h
    unfold Value.u64 at h
    split at h
    · simp at h; omega
    · obtain ⟨s, _, h⟩ := bind_eq_ok.1 h
      simp at h; subst h; exact rawToU64_range s
    · simp at h; subst h; exact rawToU64_range _
    · simp at h; omega

example : (parse b!"300" >>= Value.i8) = .ok 127 ∧ (parse b!"-1e300" >>= Value.i16) = .ok (-32768) ∧
    (parse b!"1e300" >>= Value.u32) = .ok 4294967295 := by decide +kernel

/-! ### C26 -/

/-- C26: on comparable values `cmp` never fails, is reflexive, total and
antisymmetric (swapping the operands swaps the result) and transitive; equality
(`cmp = Equal`) is compatible with it. -/
theorem C26_total_order :
    (∀ a : Value, Comparable a → a.cmp a = .ok .eq) ∧
    (∀ a b : Value, Comparable a → Comparable b → ∃ o, a.cmp b = .ok o ∧ b.cmp a = .ok o.swap) ∧
    (∀ a b c : Value, Comparable a → Comparable b → Comparable c →
      (a.cmp b = .ok .lt ∨ a.cmp b = .ok .eq) → (b.cmp c = .ok .lt ∨ b.cmp c = .ok .eq) →
      (a.cmp c = .ok .lt ∨ a.cmp c = .ok .eq)) ∧
    (∀ a b c : Value, Comparable a → Comparable b → Comparable c →
      a.cmp b = .ok .eq → b.cmp c = a.cmp c) := by
  have h := cmpVal_ord
  refine ⟨fun a ha => by rw [cmp_eq ha ha, h.refl a ha],
    fun a b ha hb => ⟨_, cmp_eq ha hb, by rw [cmp_eq hb ha, h.swap a b ha hb]⟩, ?_, ?_⟩
  · intro a b c ha hb hc
    rw [cmp_eq ha hb, cmp_eq hb hc, cmp_eq ha hc]
    have hle : ∀ o : Ordering, ((Except.ok o : Res Ordering) = .ok .lt ∨ (Except.ok o : Res Ordering) = .ok .eq) ↔ o ≠ .gt := by
      intro o; cases o <;> decide
    rw [hle, hle, hle]
    exact h.trans a b c ha hb hc
  · intro a b c ha hb hc
    rw [cmp_eq ha hb, cmp_eq hb hc, cmp_eq ha hc]
    intro e
    simp only [Except.ok.injEq] at e
    rw [Except.ok.injEq]
    have e' : cmpVal b a = .eq := by rw [h.swap a b ha hb, e]; rfl
    have t1 := h.trans a b c ha hb hc (by rw [e]; decide)
    have t2 := h.trans b a c hb ha hc (by rw [e']; decide)
    have t3 : cmpVal c b ≠ .gt → cmpVal c a ≠ .gt := fun x => h.trans c b a hc hb ha x (by rw [e']; decide)
    have t4 : cmpVal c a ≠ .gt → cmpVal c b ≠ .gt := fun x => h.trans c a b hc ha hb x (by rw [e]; decide)
    rw [h.swap a c ha hc, h.swap b c hb hc] at t3 t4
    have key : ∀ x y : Ordering, (y ≠ .gt → x ≠ .gt) → (x ≠ .gt → y ≠ .gt) →
        (y.swap ≠ .gt → x.swap ≠ .gt) → (x.swap ≠ .gt → y.swap ≠ .gt) → y = x := by decide
    exact key _ _ t1 t2 t3 t4

/-- C26: `==` is `cmp == Equal`. -/
theorem C26_eq (a b : Value) (ha : Comparable a) (hb : Comparable b) :
    a.eq b = .ok true ↔ a.cmp b = .ok .eq := by
  unfold Value.eq
  rw [cmp_eq ha hb]
  simp

/-- The order of the kinds in the property. -/
def kindRank : Kind → Nat
  | .null => 0 | .false => 1 | .number => 2 | .string => 3 | .true => 4 | .array => 5 | .object => 6

/-- C26: values of different kinds are ordered by kind alone: Null < False <
Number < String < True < Array < Object. -/
theorem C26_kind_first (a b : Value) (h : a.kind ≠ b.kind) :
    a.cmp b = .ok (if kindRank a.kind < kindRank b.kind then .lt else .gt) := by
  unfold Value.cmp
  simp only
  generalize a.kind = x at h
  generalize b.kind = y at h
  cases x <;> cases y <;> first | exact absurd rfl h | rfl

/-- C26: strings are ordered by content (Lean's lexicographic order on the bytes). -/
theorem C26_strings (a b : Value) (x y : Bytes) (ha : a.kind = .string) (hb : b.kind = .string)
    (hx : a.str = .ok x) (hy : b.str = .ok y) :
    (a.cmp b = .ok .lt ↔ x < y) ∧ (a.cmp b = .ok .eq ↔ x = y) := by
  have hc : a.cmp b = .ok (cmpBytes x y) := by
    unfold Value.cmp
    simp only
    rw [if_neg (fun e => e ((kindCmp _ _).1.2 (ha.trans hb.symm))), if_pos ha, hx, hy]
    rfl
  rw [hc]
  simp only [Except.ok.injEq]
  exact ⟨cmpBytes_lt x y, cmpBytes_eq x y⟩

/-- C26: numbers are ordered by numeric value (`F64.lt` is IEEE `<`). -/
theorem C26_numbers (a b : Value) (x y : F64) (ha : a.kind = .number) (hb : b.kind = .number)
    (hx : a.f64 = .ok x) (hy : b.f64 = .ok y) :
    (a.cmp b = .ok .lt ↔ x.lt y = true) ∧ (b.cmp a = .ok .lt ↔ y.lt x = true) ∧
      (a.cmp b = .ok .eq ↔ x.lt y = false ∧ y.lt x = false) := by
  have hc : ∀ a b : Value, ∀ x y : F64, a.kind = .number → b.kind = .number → a.f64 = .ok x → b.f64 = .ok y →
      (a.cmp b = .ok .lt ↔ x.lt y = true) ∧ (a.cmp b = .ok .eq ↔ x.lt y = false ∧ y.lt x = false) := by
    intro a b x y ha hb hx hy
    unfold Value.cmp
    simp only
    rw [if_neg (fun e => e ((kindCmp _ _).1.2 (ha.trans hb.symm))), if_neg (by rw [ha]; decide), if_pos ha, hx, hy]
    simp only [ok_bind]
    cases x.lt y <;> cases y.lt x <;> simp
  exact ⟨(hc a b x y ha hb hx hy).1, (hc b a y x hb ha hy hx).1, (hc a b x y ha hb hx hy).2⟩

/-- C26: values of one of the other kinds are ordered by their text. -/
theorem C26_others (a b : Value) (hk : a.kind = b.kind) (hs : a.kind ≠ .string) (hn : a.kind ≠ .number) :
    (a.cmp b = .ok .lt ↔ a.json < b.json) ∧ (a.cmp b = .ok .eq ↔ a.json = b.json) ∧ (a.cmp b = .ok .gt ↔ b.json < a.json) := by
  have hc : a.cmp b = .ok (cmpBytes a.json b.json) := by
    unfold Value.cmp
    simp only
    rw [if_neg (fun e => e ((kindCmp _ _).1.2 hk)), if_neg hs, if_neg hn]
  rw [hc]
  simp only [Except.ok.injEq]
  refine ⟨cmpBytes_lt _ _, cmpBytes_eq _ _, ?_⟩
  rw [← cmpBytes_lt b.json a.json, cmpBytes_swap a.json b.json]
  cases cmpBytes a.json b.json <;> simp [Ordering.swap]

/-- Non-trivial instances: numbers by value, not by text; strings by content. -/
example : (do let a ← parse b!"9"; let b ← parse b!"1e1"; a.cmp b) = .ok .lt ∧
    (do let a ← parse b!"100"; let b ← parse b!"1e2"; a.eq b) = .ok true ∧
    (do let a ← parse b!"\"\\u0041\""; let b ← parse b!"\"A\""; a.eq b) = .ok true ∧
    (do let a ← parse b!"null"; let b ← parse b!"{}"; a.cmp b) = .ok .lt := by decide +kernel

/-! ### C39 -/

/-- C39: the table of `bool()`. -/
theorem C39_bool (v : Value) :
    (v.json ∈ trueTexts → v.bool = .ok true) ∧
    (v.json ∈ falseTexts → v.bool = .ok false) ∧
    (v.json ∉ trueTexts → v.kind = .null → v.bool = .ok false) ∧
    (v.json ∉ trueTexts → v.json ∉ falseTexts → ∀ x, v.i64 = .ok x → v.bool = .ok (decide (x ≠ 0))) := by
  have hrest : v.json ∉ trueTexts → v.json ∉ falseTexts → v.bool = (v.i64 >>= fun x => .ok (decide (x ≠ 0))) := by
    intro h1 h2
    simp only [trueTexts, falseTexts, List.mem_cons, List.not_mem_nil, or_false, not_or] at h1 h2
    obtain ⟨a1, a2, a3, a4, a5, a6, a7, a8⟩ := h1
    obtain ⟨b1, b2, b3, b4, b5, b6, b7, b8⟩ := h2
    unfold Value.bool
    simp only [a1, a2, a3, a4, a5, a6, a7, a8, b1, b2, b3, b4, b5, b6, b7, b8, or_self, if_false]
  have hfalse : v.json ∈ falseTexts → v.bool = .ok false := by
    intro h
    simp only [falseTexts, List.mem_cons, List.not_mem_nil, or_false] at h
    unfold Value.bool
    rcases h with h | h | h | h | h | h | h | h <;> simp only [h] <;> rfl
  refine ⟨?_, hfalse, ?_, ?_⟩
  · intro h
    simp only [trueTexts, List.mem_cons, List.not_mem_nil, or_false] at h
    unfold Value.bool
    rcases h with h | h | h | h | h | h | h | h <;> simp only [h] <;> rfl
  · intro h1 hk
    by_cases h2 : v.json ∈ falseTexts
    · exact hfalse h2
    · rw [hrest h1 h2]
      unfold Value.i64
      rw [hk]; rfl
  · intro h1 h2 x hx
    rw [hrest h1 h2, hx]; rfl

example : (parse b!" \"True\" " >>= Value.bool) = .ok true ∧ (parse b!"null" >>= Value.bool) = .ok false ∧
    (parse b!"0.5" >>= Value.bool) = .ok false ∧ (parse b!"\"7\"" >>= Value.bool) = .ok true := by decide +kernel

/-! ### C05, the part about `parse` -/

/-- C05 for `parse`, on any text: as long
as the value exists (or is not of kind String) no accessor panics, and it can be
compared. Missing: strings that do not exist, where it is false
(`C05_false_unclosed`). -/
theorem C05_parse_partial (json : Bytes) (v : Value) (h : parse json = .ok v)
    (he : v.exists = true ∨ v.kind ≠ .string) :
    (∃ s, v.str = .ok s) ∧ (∃ x, v.i64 = .ok x) ∧ (∃ x, v.u64 = .ok x) ∧ (∃ x, v.f64 = .ok x) ∧
    (∃ x, v.bool = .ok x) ∧ Comparable v := by
  rw [parse_eq] at h
  simp only [Except.ok.injEq] at h
  subst h
  have g := pParse_good json 0
  exact ⟨g.strOk he, g.i64Ok he, g.u64Ok he, g.f64Ok he, g.boolOk he, g.comparable he⟩

/-- C05 is false as stated: for an unclosed string `parse` returns an empty value
of kind String, on which every accessor panics (`raw.len() - 1` underflows,
lib.rs:226, 246, 262, 343). -/
theorem C05_false_unclosed :
    (parse b!"\"abc" >>= Value.str) = .error .panic ∧
    (parse b!"\"abc" >>= Value.i64) = .error .panic ∧
    (parse b!"\"abc" >>= Value.u64) = .error .panic ∧
    (parse b!"\"abc" >>= Value.f64) = .error .panic ∧
    (parse b!"\"abc" >>= Value.bool) = .error .panic ∧
    (parse b!"\"abc" >>= fun v => v.cmp v) = .error .panic := by decide +kernel

end Gjson
