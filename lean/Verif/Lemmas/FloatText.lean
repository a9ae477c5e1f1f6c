import Verif.Lemmas.Nearest
import Verif.Lemmas.Lookup
/-
The number parsers of the standard library against their grammar, for arbitrary text.
-/
namespace Gjson
open Spec

theorem anyCase_iff {w : Bytes} (hw : ∀ l ∈ w, c! 'a' ≤ l ∧ l ≤ c! 'z') :
    ∀ {s : Bytes}, AnyCase s w ↔ s.map lowerAscii = w := by
  induction w with
  | nil => intro s; cases s <;> simp [AnyCase]
  | cons l w ih =>
    intro s
    cases s with
    | nil => simp [AnyCase]
    | cons c s =>
      have h1 := hw l (by simp)
      simp only [AnyCase, List.map_cons, List.cons.injEq, ih (fun x hx => hw x (by simp [hx]))]
      refine and_congr_left' ?_
      unfold lowerAscii
      split <;> grind

theorem spanDigits_spec (s : Bytes) : s = (spanDigits s).1 ++ (spanDigits s).2 ∧ (∀ c ∈ (spanDigits s).1, IsDigit c) ∧
    ∀ c ∈ (spanDigits s).2.head?, ¬ IsDigit c := by
  induction s with
  | nil => simp [spanDigits]
  | cons c r ih =>
    unfold spanDigits
    split
    · rename_i h
      obtain ⟨h1, h2, h3⟩ := ih
      refine ⟨?_, ?_, h3⟩
      · simp only [List.cons_append]; rw [← h1]
      · simp only [List.mem_cons]
        rintro x (rfl | hx)
        · exact (isDigit_iff _).1 h
        · exact h2 x hx
    · rename_i h
      rw [isDigit_iff] at h
      simpa using h

theorem parseNat_digits {s : Bytes} {n : Nat} (h : parseNat s = some n) :
    s ≠ [] ∧ (∀ c ∈ s, IsDigit c) ∧ decVal s = n := by
  unfold parseNat at h
  split at h
  · cases h
  · rename_i hne
    have hd := decDigits_some h
    rw [decDigits_eq hd] at h
    exact ⟨hne, hd, by simpa [decVal] using h⟩

theorem parseExp_some {s : Bytes} {e : Int} (h : parseExp s = some e) : ExpPart s ∧ expVal s = e := by
  have key : ExpPart s := by
    unfold parseExp at h
    split at h
    · exact .inl rfl
    · split at h
      · rename_i c r he
        cases r with
        | nil => simp at h
        | cons d r' =>
          simp only at h
          split at h
          · rename_i hd
            cases hn : parseNat r' with
            | none => rw [hn] at h; cases h
            | some n =>
              obtain ⟨a1, a2, _⟩ := parseNat_digits hn
              exact .inr ⟨c, [d], r', rfl, he, .inr (.inr (by rw [hd])), a1, a2⟩
          · split at h
            · rename_i hd
              cases hn : parseNat r' with
              | none => rw [hn] at h; cases h
              | some n =>
                obtain ⟨a1, a2, _⟩ := parseNat_digits hn
                exact .inr ⟨c, [d], r', rfl, he, .inr (.inl (by rw [hd])), a1, a2⟩
            · cases hn : parseNat (d :: r') with
              | none => rw [hn] at h; cases h
              | some n =>
                obtain ⟨a1, a2, _⟩ := parseNat_digits hn
                exact .inr ⟨c, [], d :: r', rfl, he, .inl rfl, a1, a2⟩
      · cases h
  refine ⟨key, ?_⟩
  rw [parseExp_eq key] at h
  simpa using h

/-- The unsigned part of a number. -/
def BodyText (neg : Bool) (s : Bytes) (x : F64) : Prop :=
  (∃ q, DecimalText s q ∧ binary64.Rounds neg q x) ∨
  ((AnyCase s b!"inf" ∨ AnyCase s b!"infinity") ∧ x = .inf neg) ∨
  (AnyCase s b!"nan" ∧ x = .nan)

theorem low_inf {s : Bytes} : AnyCase s b!"inf" ↔ s.map lowerAscii = b!"inf" := anyCase_iff (by decide)
theorem low_infinity {s : Bytes} : AnyCase s b!"infinity" ↔ s.map lowerAscii = b!"infinity" := anyCase_iff (by decide)
theorem low_nan {s : Bytes} : AnyCase s b!"nan" ↔ s.map lowerAscii = b!"nan" := anyCase_iff (by decide)

theorem unsigned_sound {neg : Bool} {s : Bytes} {x : F64} (h : parseF64Unsigned neg s = some x) : BodyText neg s x := by
  unfold parseF64Unsigned at h
  simp only at h
  split at h
  · rename_i hc
    rw [← low_inf, ← low_infinity] at hc
    exact .inr (.inl ⟨hc, by simpa using h.symm⟩)
  rename_i h1
  clear h1
  split at h
  · rename_i hc
    rw [← low_nan] at hc
    exact .inr (.inr ⟨hc, by simpa using h.symm⟩)
  rename_i h1
  clear h1
  refine .inl ?_
  obtain ⟨e1, e2, e3⟩ := spanDigits_spec s
  generalize (spanDigits s).1 = ip at *
  generalize (spanDigits s).2 = r at *
  subst e1
  split at h
  · split at h
    · cases h
    · rename_i hne
      simp only [Option.some.injEq] at h
      subst h
      refine ⟨_, ⟨ip, [], [], rfl, e2, .inl ⟨rfl, hne⟩, .inl rfl, rfl⟩, ?_⟩
      have := decToF64_rounds neg (digitsVal ip) 0
      rw [digitsVal_eq] at this
      rw [digitsVal_eq]
      simpa [expVal] using this
  · rename_i c r'
    split at h
    · rename_i hc
      subst hc
      obtain ⟨g1, g2, g3⟩ := spanDigits_spec r'
      generalize (spanDigits r').1 = fp at *
      generalize (spanDigits r').2 = ep at *
      subst g1
      split at h
      · cases h
      · rename_i hne
        rw [Option.map_eq_some_iff] at h
        obtain ⟨e, he, rfl⟩ := h
        obtain ⟨k1, rfl⟩ := parseExp_some he
        refine ⟨_, ⟨ip, c! '.' :: fp, ep, by simp, e2, .inr ⟨fp, rfl, g2, ?_⟩, k1, rfl⟩, ?_⟩
        · by_cases hi : ip = []
          · exact .inr fun hf => hne ⟨hi, hf⟩
          · exact .inl hi
        · rw [digitsVal_eq]
          exact decToF64_rounds _ _ _
    · split at h
      · cases h
      · rename_i hne
        rw [Option.map_eq_some_iff] at h
        obtain ⟨e, he, rfl⟩ := h
        obtain ⟨k1, rfl⟩ := parseExp_some he
        refine ⟨_, ⟨ip, [], _, rfl, e2, .inl ⟨rfl, hne⟩, k1, rfl⟩, ?_⟩
        rw [digitsVal_eq]
        simpa using decToF64_rounds neg (decVal ip) (expVal (c :: r'))

theorem decimalText_head {s : Bytes} {q : ℚ} (h : DecimalText s q) : ∃ c r, s = c :: r ∧ (IsDigit c ∨ c = c! '.') := by
  obtain ⟨ip, fp, ep, rfl, hi, hf, _, _⟩ := h
  cases ip with
  | cons c r => exact ⟨c, _, rfl, .inl (hi c (by simp))⟩
  | nil =>
    rcases hf with ⟨_, h⟩ | ⟨ds, rfl, _⟩
    · exact absurd rfl h
    · exact ⟨c! '.', ds ++ ep, rfl, .inr rfl⟩

theorem unsigned_decimal {neg : Bool} {s : Bytes} {q : ℚ} (h : DecimalText s q) :
    ∃ d e, parseF64Unsigned neg s = some (decToF64 neg d e) ∧ q = (d : ℚ) * 10 ^ e := by
  obtain ⟨c, r, hcr, hc⟩ := decimalText_head h
  obtain ⟨ip, fp, ep, rfl, hi, hf, he, rfl⟩ := h
  have hlow : ∀ w ∈ [b!"inf", b!"infinity", b!"nan"], (ip ++ (fp ++ ep)).map lowerAscii ≠ w := by
    rw [hcr]
    have hl : lowerAscii c ≠ c! 'i' ∧ lowerAscii c ≠ c! 'n' := by
      rcases hc with h | rfl
      · exact digit_lower h
      · decide
    intro w hw
    simp at hw
    rcases hw with rfl | rfl | rfl <;> simp [hl.1, hl.2]
  refine ⟨_, _, ?_, rfl⟩
  unfold parseF64Unsigned
  simp only
  rw [if_neg (not_or.2 ⟨hlow _ (by simp), hlow _ (by simp)⟩), if_neg (hlow _ (by simp))]
  rcases hf with ⟨rfl, hne⟩ | ⟨ds, rfl, hd, hne⟩
  · rw [List.nil_append, spanDigits_append hi (fun c hc => (expPart_head he c hc).1)]
    simp only [List.drop_nil, List.append_nil, List.length_nil, Int.natCast_zero, Int.sub_zero]
    cases ep with
    | nil => simp only [hne, if_false, digitsVal_eq]; rfl
    | cons c r =>
      have := (expPart_head he c (by simp)).2
      simp only [this, hne, if_false]
      rw [parseExp_eq he]
      simp [digitsVal_eq]
  · rw [spanDigits_append hi (by intro c hc; simp at hc; subst hc; decide)]
    simp only [List.cons_append, if_true, List.drop_succ_cons, List.drop_zero]
    rw [spanDigits_append hd (fun c hc => (expPart_head he c hc).1)]
    have : ¬ (ip = [] ∧ ds = []) := by rcases hne with h | h <;> simp [h]
    simp only [this, if_false]
    rw [parseExp_eq he]
    simp [digitsVal_eq]

theorem unsigned_complete {neg : Bool} {s : Bytes} {x : F64} (h : BodyText neg s x) : parseF64Unsigned neg s = some x := by
  rcases h with ⟨q, hd, hr⟩ | ⟨h, rfl⟩ | ⟨h, rfl⟩
  · obtain ⟨d, e, h1, rfl⟩ := unsigned_decimal (neg := neg) hd
    rw [h1, rounds_unique (decToF64_rounds neg d e) hr]
  · rw [low_inf, low_infinity] at h
    unfold parseF64Unsigned
    simp only [h, if_true]
  · rw [low_nan] at h
    unfold parseF64Unsigned
    simp only [h]
    rw [if_neg (by decide), if_pos trivial]

theorem bodyText_head {neg : Bool} {s : Bytes} {x : F64} (h : BodyText neg s x) :
    ∃ c r, s = c :: r ∧ c ≠ c! '-' ∧ c ≠ c! '+' := by
  have word : ∀ {l : UInt8} {w : Bytes}, AnyCase s (l :: w) → (l = c! 'i' ∨ l = c! 'n') → ∃ c r, s = c :: r ∧ c ≠ c! '-' ∧ c ≠ c! '+' := by
    intro l w h hl
    cases s with
    | nil => simp [AnyCase] at h
    | cons c r =>
      refine ⟨c, r, rfl, ?_⟩
      have := h.1
      rcases hl with rfl | rfl <;> grind
  rcases h with ⟨q, hd, _⟩ | ⟨h | h, _⟩ | ⟨h, _⟩
  · obtain ⟨c, r, rfl, h⟩ := decimalText_head hd
    refine ⟨c, r, rfl, ?_⟩
    rcases h with h | rfl
    · exact digit_not_sign h
    · decide
  · exact word h (.inl rfl)
  · exact word h (.inl rfl)
  · exact word h (.inr rfl)

/-- `f64::from_str` accepts exactly the texts of the grammar. -/
theorem parseF64_iff {t : Bytes} {x : F64} : parseF64 t = some x ↔ FloatText t x := by
  constructor
  · intro h
    unfold parseF64 at h
    split at h
    · cases h
    · rename_i c r
      split at h
      · rename_i hc
        exact ⟨b!"-", true, r, by rw [hc]; rfl, rfl, unsigned_sound h⟩
      split at h
      · rename_i hc
        exact ⟨b!"+", false, r, by rw [hc]; rfl, .inr rfl, unsigned_sound h⟩
      · exact ⟨[], false, c :: r, rfl, .inl rfl, unsigned_sound h⟩
  · rintro ⟨sg, neg, s, rfl, hs, hb⟩
    change BodyText neg s x at hb
    obtain ⟨c, r, hcr, h1, h2⟩ := bodyText_head hb
    rw [← unsigned_complete hb]
    unfold SignOf at hs
    cases neg with
    | true =>
      simp only [if_true] at hs
      subst hs
      simp [parseF64]
    | false =>
      simp only [Bool.false_eq_true, if_false] at hs
      rcases hs with rfl | rfl
      · subst hcr
        simp [parseF64, h1, h2]
      · simp [parseF64]

theorem floatOf_iff {t : Bytes} {x : F64} : FloatOf t x ↔ rawToF64 t = x := by
  unfold FloatOf rawToF64
  simp only [← parseF64_iff]
  cases parseF64 t with
  | none => simp [F64.zero, eq_comm]
  | some y => simp

/-! ### Integers -/

theorem intText_iff {t : Bytes} {neg : Bool} {n : Nat} :
    IntText t neg n ↔ ∃ sg ds, t = sg ++ ds ∧ SignOf sg neg ∧ parseNat ds = some n := by
  constructor
  · rintro ⟨sg, ds, h1, h2, h3, h4, rfl⟩
    exact ⟨sg, ds, h1, h2, parseNat_eq h3 h4⟩
  · rintro ⟨sg, ds, h1, h2, h3⟩
    obtain ⟨a, b, c⟩ := parseNat_digits h3
    exact ⟨sg, ds, h1, h2, a, b, c⟩

theorem parseNat_sign {c : UInt8} {r : Bytes} (h : c = c! '-' ∨ c = c! '+') : parseNat (c :: r) = none := by
  cases hp : parseNat (c :: r) with
  | none => rfl
  | some n =>
    have := digit_not_sign ((parseNat_digits hp).2.1 c (by simp))
    rcases h with h | h
    · exact absurd h this.1
    · exact absurd h this.2

theorem intText_neg {t : Bytes} {n : Nat} : IntText t true n ↔ ∃ r, t = c! '-' :: r ∧ parseNat r = some n := by
  rw [intText_iff]
  constructor
  · rintro ⟨sg, ds, rfl, hs, h⟩
    unfold SignOf at hs
    simp only [if_true] at hs
    subst hs
    exact ⟨ds, rfl, h⟩
  · rintro ⟨r, rfl, h⟩
    exact ⟨b!"-", r, rfl, rfl, h⟩

theorem intText_pos {c : UInt8} {r : Bytes} {n : Nat} :
    IntText (c :: r) false n ↔ parseNat (if c = c! '+' then r else c :: r) = some n := by
  rw [intText_iff]
  constructor
  · rintro ⟨sg, ds, e, hs, h⟩
    unfold SignOf at hs
    simp only [Bool.false_eq_true, if_false] at hs
    rcases hs with rfl | rfl
    · rw [List.nil_append] at e; subst e
      split
      · rename_i hc; rw [parseNat_sign (.inr hc)] at h; cases h
      · exact h
    · simp only [List.cons_append, List.nil_append, List.cons.injEq] at e
      obtain ⟨rfl, rfl⟩ := e
      rw [if_pos rfl]; exact h
  · intro h
    split at h
    · rename_i hc; subst hc
      exact ⟨b!"+", r, rfl, .inr rfl, h⟩
    · exact ⟨[], c :: r, rfl, .inl rfl, h⟩

theorem intText_nil {neg : Bool} {n : Nat} : ¬ IntText [] neg n := by
  rintro ⟨sg, ds, h1, _, h2, _⟩
  simp at h1
  exact h2 h1.2

theorem parseI64_iff {t : Bytes} {n : Int} : parseI64 t = some n ↔
    ∃ neg m, IntText t neg m ∧ m ≤ (if neg then 2 ^ 63 else 2 ^ 63 - 1) ∧ n = if neg then -(m : Int) else (m : Int) := by
  cases t with
  | nil =>
    simp only [parseI64]
    constructor
    · intro h; cases h
    · rintro ⟨_, _, h, _⟩; exact absurd h intText_nil
  | cons c r =>
    simp only [parseI64]
    split
    · rename_i hc; subst hc
      constructor
      · intro h
        split at h
        · rename_i m hm
          split at h
          · exact ⟨true, m, intText_neg.2 ⟨r, rfl, hm⟩, by simpa, by simpa using h.symm⟩
          · cases h
        · cases h
      · rintro ⟨neg, m, h, h1, rfl⟩
        cases neg with
        | true =>
          obtain ⟨r', e, h⟩ := intText_neg.1 h
          simp only [List.cons.injEq, true_and] at e
          subst e
          rw [h]
          simp only [if_true] at h1 ⊢
          rw [if_pos (by omega)]
        | false =>
          rw [intText_pos, if_neg (by decide), parseNat_sign (.inl rfl)] at h
          cases h
    · rename_i hc
      constructor
      · intro h
        split at h
        · rename_i m hm
          split at h
          · rename_i hle
            exact ⟨false, m, intText_pos.2 hm, by simpa, by simpa using h.symm⟩
          · cases h
        · cases h
      · rintro ⟨neg, m, h, h1, rfl⟩
        cases neg with
        | true =>
          obtain ⟨r', e, h⟩ := intText_neg.1 h
          simp only [List.cons.injEq] at e
          exact absurd e.1 hc
        | false =>
          rw [intText_pos.1 h]
          simp only [Bool.false_eq_true, if_false] at h1 ⊢
          rw [if_pos (by omega)]

theorem parseU64_iff {t : Bytes} {n : Nat} : parseU64 t = some n ↔ IntText t false n ∧ n ≤ 2 ^ 64 - 1 := by
  cases t with
  | nil => simp [parseU64, intText_nil]
  | cons c r =>
    rw [intText_pos]
    simp only [parseU64]
    cases parseNat (if c = c! '+' then r else c :: r) with
    | none => simp
    | some m =>
      simp only [Option.some.injEq]
      split <;> constructor <;> intro h
      · cases h; exact ⟨rfl, by assumption⟩
      · rw [h.1]
      · cases h
      · omega

end Gjson
