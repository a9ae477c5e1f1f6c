import Verif.Lemmas.FloatText
import Verif.Props.Numbers
/-
C46: what `f64()`, `i64()` and `u64()` are for values of every kind, and for strings with
any content.
-/
namespace Gjson
open Spec

/-- The specification determines the number. -/
theorem truncated_unique {lo hi : Int} {x : F64} {m n : Int} (h : F64.Truncated lo hi x m) (g : F64.Truncated lo hi x n) :
    m = n := by
  cases x with
  | nan => exact h.trans g.symm
  | inf b => exact h.trans g.symm
  | fin b k =>
    obtain ⟨t, h1, h2, rfl⟩ := h
    obtain ⟨u, g1, g2, rfl⟩ := g
    have a : (t : ℚ) < u + 1 := lt_of_le_of_lt h1 g2
    have b : (u : ℚ) < t + 1 := lt_of_le_of_lt g1 h2
    have a' : t < u + 1 := by exact_mod_cast a
    have b' : u < t + 1 := by exact_mod_cast b
    have : t = u := by omega
    rw [this]

theorem signedOf_raw (t : Bytes) : SignedOf t (rawToI64 t) := by
  unfold rawToI64
  cases h : parseI64 t with
  | some n => exact .inl (parseI64_iff.1 h)
  | none =>
    refine .inr ⟨fun neg m hm => ?_, rawToF64 t, floatOf_iff.2 rfl, toI64_truncated _⟩
    by_contra hc
    have := parseI64_iff.2 ⟨neg, m, hm, Nat.le_of_not_lt hc, rfl⟩
    rw [h] at this
    cases this

theorem unsignedOf_raw (t : Bytes) : UnsignedOf t (rawToU64 t) := by
  unfold rawToU64
  cases h : parseU64 t with
  | some n => exact .inl (parseU64_iff.1 h)
  | none =>
    refine .inr ⟨fun m hm => ?_, rawToF64 t, floatOf_iff.2 rfl, toU64_truncated _⟩
    by_contra hc
    have := parseU64_iff.2 ⟨hm, Nat.le_of_not_lt hc⟩
    rw [h] at this
    cases this

/-- C46: for every text there is exactly one number that it is read as. -/
theorem C46_determined (t : Bytes) : (∃ x, ∀ y, FloatOf t y ↔ y = x) ∧ (∃ n, ∀ m, SignedOf t m ↔ m = n) ∧
    ∃ n, ∀ m, UnsignedOf t m ↔ m = n := by
  refine ⟨⟨rawToF64 t, fun y => by rw [floatOf_iff, eq_comm]⟩, ⟨rawToI64 t, fun m => ⟨fun h => ?_, ?_⟩⟩, ⟨rawToU64 t, fun m => ⟨fun h => ?_, ?_⟩⟩⟩
  · rcases h with h | ⟨h1, x, h2, h3⟩
    · unfold rawToI64; rw [parseI64_iff.2 h]; rfl
    · rcases signedOf_raw t with ⟨neg, k, g1, g2, _⟩ | ⟨_, y, g2, g3⟩
      · have := h1 neg k g1; omega
      · rw [floatOf_iff] at h2 g2
        subst h2; subst g2
        exact truncated_unique h3 g3
  · rintro rfl; exact signedOf_raw t
  · rcases h with h | ⟨h1, x, h2, h3⟩
    · unfold rawToU64; rw [parseU64_iff.2 h]; rfl
    · rcases unsignedOf_raw t with ⟨g1, g2⟩ | ⟨_, y, g2, g3⟩
      · have := h1 _ g1; omega
      · rw [floatOf_iff] at h2 g2
        subst h2; subst g2
        exact_mod_cast truncated_unique h3 g3
  · rintro rfl; exact unsignedOf_raw t

/-- C46: `true` is 1; `false`, `null`, arrays, objects and missing values are 0. -/
theorem C46_others (v : Value) :
    (v.kind = .true → v.i64 = .ok 1 ∧ v.u64 = .ok 1 ∧ v.f64 = .ok (.fin false (2 ^ 1074))) ∧
    (v.kind ≠ .true → v.kind ≠ .number → v.kind ≠ .string → v.i64 = .ok 0 ∧ v.u64 = .ok 0 ∧ v.f64 = .ok (.fin false 0)) := by
  unfold Value.i64 Value.u64 Value.f64
  constructor
  · intro h
    rw [h]
    exact ⟨rfl, rfl, by unfold F64.one F64.unit; rfl⟩
  · intro h1 h2 h3
    cases hk : v.kind <;> simp_all [F64.zero]

/-- C46: a value of kind Number, whatever its text. -/
theorem C46_number {v : Value} (hk : v.kind = .number) :
    ∃ x n m, v.f64 = .ok x ∧ FloatOf v.json x ∧ v.i64 = .ok n ∧ SignedOf v.json n ∧ v.u64 = .ok m ∧ UnsignedOf v.json m := by
  refine ⟨rawToF64 v.json, rawToI64 v.json, rawToU64 v.json, ?_, floatOf_iff.2 rfl, ?_, signedOf_raw _, ?_, unsignedOf_raw _⟩
  · unfold Value.f64; rw [hk]
  · unfold Value.i64; rw [hk]
  · unfold Value.u64; rw [hk]

theorem leafVal_strForNum {b : Bytes} (hb : StrBody b) (i : Option Nat) :
    (leafVal i (c! '"' :: (b ++ [c! '"']))).strForNum = .ok (unesc b) := by
  have hi : infoOf (c! '"' :: (b ++ [c! '"'])) = escBit (decide (c! '\\' ∈ b)) ||| INFO_STRING := by
    simp [infoOf]
  unfold leafVal Value.strForNum
  rw [mkVal_info, hi, mkVal_json]
  by_cases hs : c! '\\' ∈ b
  · rw [if_pos ((escBit_str _).1.2 (by simpa using hs)), unescape_quoted]
  · rw [if_neg (fun x => hs (by simpa using (escBit_str _).1.1 x)), stripQuotes_quoted, unesc_body hb hs]

/-- C46: a string is read as the number its content `str()` is the text of, and as 0 if it
is none. -/
theorem C46_string {b : Bytes} (hb : StrBody b) {w1 w2 : Bytes} (hw1 : Ws w1) (hw2 : Ws w2) :
    ∃ v s x n m, parse (w1 ++ ((c! '"' :: (b ++ [c! '"'])) ++ w2)) = .ok v ∧ v.kind = .string ∧ v.str = .ok s ∧
      v.f64 = .ok x ∧ FloatOf s x ∧ v.i64 = .ok n ∧ SignedOf s n ∧ v.u64 = .ok m ∧ UnsignedOf s m := by
  have hlit : StrLit (c! '"' :: (b ++ [c! '"'])) := ⟨b, hb, rfl⟩
  have hk : (leafVal (some (0 + w1.length)) (c! '"' :: (b ++ [c! '"']))).kind = .string := by
    rw [leafVal_kind (by simp)]; rfl
  have hs := leafVal_str (i := some (0 + w1.length)) hb
  have hn := leafVal_strForNum hb (some (0 + w1.length))
  refine ⟨leafVal (some (0 + w1.length)) (c! '"' :: (b ++ [c! '"'])), unesc b, rawToF64 (unesc b), rawToI64 (unesc b),
    rawToU64 (unesc b), ?_, hk, hs, ?_, floatOf_iff.2 rfl, ?_, signedOf_raw _, ?_, unsignedOf_raw _⟩
  · rw [parse_eq, pParse_ws hw1, pParse_scalar (.str hlit) (Follow.ws' hw2) (by simp [kindOf])]
  · unfold Value.f64; rw [hk]; simp only; rw [hn]; rfl
  · unfold Value.i64; rw [hk]; simp only; rw [hn]; rfl
  · unfold Value.u64; rw [hk]; simp only; rw [hn]; rfl

/-- Sample texts: numbers outside JSON's syntax, the words, and text that is no number. -/
example : FloatOf b!"+.5E1" (.fin false (5 * 2 ^ 1074)) ∧ FloatOf b!"-iNF" (.inf true) ∧ FloatOf b!"Infinity" (.inf false) ∧
    FloatOf b!"+nan" .nan ∧ FloatOf b!"007." (.fin false (7 * 2 ^ 1074)) ∧
    (∀ t ∈ [b!"", b!"+", b!".", b!"1e", b!" 1", b!"1 ", b!"0x10", b!"infinit", b!"--1", b!"1_000"], FloatOf t (.fin false 0)) ∧
    SignedOf b!"+0012" 12 ∧ SignedOf b!"-9223372036854775809" (-9223372036854775808) ∧ SignedOf b!"1.9e1" 19 ∧
    UnsignedOf b!"-5" 0 ∧ UnsignedOf b!"INF" 18446744073709551615 ∧ UnsignedOf b!"abc" 0 := by
  have f : ∀ {t x}, rawToF64 t = x → FloatOf t x := fun h => floatOf_iff.2 h
  have i : ∀ {t x}, rawToI64 t = x → SignedOf t x := fun h => h ▸ signedOf_raw _
  have u : ∀ {t x}, rawToU64 t = x → UnsignedOf t x := fun h => h ▸ unsignedOf_raw _
  refine ⟨f (by decide +kernel), f (by decide +kernel), f (by decide +kernel), f (by decide +kernel), f (by decide +kernel),
    fun t ht => f ?_, i (by decide +kernel), i (by decide +kernel), i (by decide +kernel), u (by decide +kernel),
    u (by decide +kernel), u (by decide +kernel)⟩
  revert t
  decide +kernel

/-- The content decides, not how it is written: `"\\u0031"` is the string `1`. -/
example : (parse b!"\"\\u0031\"" >>= Value.i64) = .ok 1 ∧ (parse b!"\"one\"" >>= Value.f64) = .ok (.fin false 0) ∧
    (parse b!"[1]" >>= Value.i64) = .ok 0 ∧ (parse b!"true" >>= Value.u64) = .ok 1 := by decide +kernel

end Gjson
