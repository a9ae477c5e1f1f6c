import Verif.SpecAny
import Verif.Lemmas.Reads
import Verif.Lemmas.CutChar
import Verif.Lemmas.CutUp
import Verif.Props.OwnText
/-
Decoding, accessors and queries on texts of any kind.
-/
namespace Gjson
open Spec

/-! ### Decoding -/

theorem hexVal_none : ∀ c : UInt8, ¬ IsHex c → hexVal c = none := u8_all₂ _ (by decide +kernel)

/-- The four bytes are read as `Quad` says. -/
theorem radix_quad (h1 h2 h3 h4 : UInt8) : Quad h1 h2 h3 h4 (fromStrRadix16 [h1, h2, h3, h4]) := by
  have key : ∀ {a b c : UInt8}, ¬ (IsHex a ∧ IsHex b ∧ IsHex c) → ∀ n, hexDigits n [a, b, c] = none := by
    intro a b c h n
    by_cases ha : IsHex a
    · by_cases hb : IsHex b
      · simp [hexDigits, (hexVal_eq _ ha).1, (hexVal_eq _ hb).1, hexVal_none c (fun hc => h ⟨ha, hb, hc⟩)]
      · simp [hexDigits, (hexVal_eq _ ha).1, hexVal_none b hb]
    · simp [hexDigits, hexVal_none a ha]
  by_cases hr : IsHex h2 ∧ IsHex h3 ∧ IsHex h4
  · obtain ⟨a2, a3, a4⟩ := hr
    by_cases a1 : IsHex h1
    · rw [fromStrRadix16_hex a1 a2 a3 a4]
      exact ⟨a2, a3, a4, .inl ⟨a1, rfl⟩⟩
    · by_cases hp : h1 = c! '+'
      · subst hp
        have : fromStrRadix16 [c! '+', h2, h3, h4] = fromStrRadix16 [c! '0', h2, h3, h4] := by
          unfold fromStrRadix16
          simp only
          rw [if_pos trivial, if_neg (by simp), if_neg (by simp : ¬ c! '0' = c! '+'), if_neg (by simp)]
          have : hexDigits 0 [c! '0', h2, h3, h4] = hexDigits 0 [h2, h3, h4] := rfl
          rw [this]
        rw [this, fromStrRadix16_hex (by decide) a2 a3 a4]
        exact ⟨a2, a3, a4, .inr ⟨rfl, rfl⟩⟩
      · have : fromStrRadix16 [h1, h2, h3, h4] = none := by
          unfold fromStrRadix16
          simp only
          rw [if_neg hp, if_neg (by simp)]
          simp [hexDigits, hexVal_none h1 a1]
        rw [this]
        exact fun h => h.1.elim a1 hp
  · have : fromStrRadix16 [h1, h2, h3, h4] = none := by
      unfold fromStrRadix16
      simp only
      split
      · rw [if_neg (by simp), key hr]
      · rw [if_neg (by simp), hexDigits.eq_def]
        simp only
        cases hexVal h1 with
        | none => rfl
        | some d => simp only; rw [key hr]
    rw [this]
    exact fun h => hr h.2

theorem quad_one {h1 h2 h3 h4 : UInt8} {o o' : Option Nat} (h : Quad h1 h2 h3 h4 o) (h' : Quad h1 h2 h3 h4 o') : o = o' := by
  cases o with
  | none =>
    cases o' with
    | none => rfl
    | some u =>
      obtain ⟨a2, a3, a4, a1⟩ := h'
      exact absurd ⟨a1.imp And.left And.left, a2, a3, a4⟩ h
  | some u =>
    obtain ⟨a2, a3, a4, a1⟩ := h
    cases o' with
    | none => exact absurd ⟨a1.imp And.left And.left, a2, a3, a4⟩ h'
    | some u' =>
      obtain ⟨_, _, _, b1⟩ := h'
      rcases a1 with ⟨x1, rfl⟩ | ⟨x1, rfl⟩ <;> rcases b1 with ⟨y1, rfl⟩ | ⟨y1, rfl⟩
      · rfl
      · exact absurd y1 (hex_not_plus _ x1)
      · exact absurd x1 (hex_not_plus _ y1)
      · rfl

theorem quad_radix {h1 h2 h3 h4 : UInt8} {o : Option Nat} (h : Quad h1 h2 h3 h4 o) : fromStrRadix16 [h1, h2, h3, h4] = o :=
  quad_one (radix_quad _ _ _ _) h

theorem quad_hex4 {h1 h2 h3 h4 : UInt8} {u : Nat} (h : Quad h1 h2 h3 h4 (some u)) : hex4 [h1, h2, h3, h4] = u := by
  unfold hex4; rw [quad_radix h]; rfl

theorem quad_lt {h1 h2 h3 h4 : UInt8} {u : Nat} (h : Quad h1 h2 h3 h4 (some u)) : u < 0x10000 := by
  obtain ⟨a2, a3, a4, ⟨a1, rfl⟩ | ⟨_, rfl⟩⟩ := h
  · exact codeUnit_lt a1 a2 a3 a4
  · exact codeUnit_lt (by decide) a2 a3 a4

/-- What a pair of surrogates is decoded to. -/
theorem pair_point {u v cp : Nat} (hp : IsPair u v) (hcp : cp = pairPoint u v) :
    charFromU32 (utf16Decode u v) = if cp / 0x10000 % 2 = 1 then cp else charFromU32 (cp - 0x10000) := by
  obtain ⟨⟨l1, l2⟩, l3, l4⟩ := hp
  unfold pairPoint at hcp
  obtain ⟨a, rfl⟩ : ∃ a, u = 0xD800 + a := ⟨u - 0xD800, by omega⟩
  obtain ⟨b, rfl⟩ : ∃ b, v = 0xDC00 + b := ⟨v - 0xDC00, by omega⟩
  rw [Nat.add_sub_cancel_left, Nat.add_sub_cancel_left] at hcp
  rw [utf16Decode_or (by omega) (by omega)]
  by_cases h : a / 64 % 2 = 0
  · rw [if_pos h, if_pos (by omega), charFromU32_scalar (by unfold Scalar; omega)]; omega
  · rw [if_neg h, if_neg (by omega), show cp - 0x10000 = a * 0x400 + b by omega]

theorem unesc_halts {b : Bytes} (h : Halts b) : unesc b = [] := by
  cases h with
  | nil => rfl
  | control h => rw [unesc.eq_def]; simp only; rw [if_pos h]
  | lone => decide +kernel
  | unknown h1 h2 =>
    rw [unesc.eq_def]; simp only
    rw [if_neg (by decide), if_pos trivial, simpleEscape_none.2 h1]
    simp only
    rw [if_neg h2]
  | @short r h =>
    rw [unesc.eq_def]; simp only
    rw [if_neg (by decide), if_pos trivial, show simpleEscape (c! 'u') = none by decide]
    simp only
    rw [if_pos trivial]
    match r, h with
    | [], _ => rfl
    | [_], _ => rfl
    | [_, _], _ => rfl
    | [_, _, _], _ => rfl

theorem unesc_alone {h1 h2 h3 h4 : UInt8} {q : Bytes} (hs : utf16IsSurrogate (hex4 [h1, h2, h3, h4]) = true)
    (hq : ∀ g1 g2 g3 g4 r, q ≠ c! '\\' :: c! 'u' :: g1 :: g2 :: g3 :: g4 :: r) :
    unesc (c! '\\' :: c! 'u' :: h1 :: h2 :: h3 :: h4 :: q) = encodeUtf8 (charFromU32 (hex4 [h1, h2, h3, h4])) ++ unesc q := by
  rw [unesc.eq_def]
  simp only
  rw [if_neg (by decide), if_pos trivial, show simpleEscape (c! 'u') = none by decide]
  simp only
  rw [if_pos trivial, if_pos hs]
  split
  · rename_i a b g1 g2 g3 g4 q'
    rw [if_neg]
    rintro ⟨rfl, rfl⟩
    exact hq _ _ _ _ _ rfl
  · rfl

theorem unquoted_unesc {b t : Bytes} (h : Unquoted b t) : unesc b = t := by
  induction h with
  | ends h => exact unesc_halts h
  | plain h1 h3 _ ih => rw [unesc_plain (by grind) h3, ih]
  | esc h _ ih => rw [unesc_esc (simpleEscape_table h), ih]
  | bmp hq hs _ ih =>
    have hlt := quad_lt hq
    have hs' : ¬ (0xD800 ≤ _ ∧ _ ≤ 0xDFFF) := hs
    rw [unesc_bmp, quad_hex4 hq, charFromU32_scalar, encodeUtf8_eq, ih]
    · unfold Scalar; omega
    · unfold Scalar; omega
    · rw [quad_hex4 hq, Bool.eq_false_iff, ne_eq, surrogate_iff]; exact hs
  | @noNumber h1 h2 h3 h4 _ _ hq _ ih =>
    have e : hex4 [h1, h2, h3, h4] = 0xFFFD := by unfold hex4; rw [quad_radix hq]; rfl
    rw [unesc_bmp (by rw [e]; decide), e, ih, show charFromU32 0xFFFD = 0xFFFD by decide, fffd]
  | pair hq hg hp hcp _ ih =>
    have hb : _ ∧ _ := hp
    rw [unesc_pair (by rw [quad_hex4 hq, surrogate_iff]; exact ⟨hb.1.1, by omega⟩), ih]
    unfold pair4
    rw [quad_radix hg]
    simp only
    rw [quad_hex4 hq, pair_point hp hcp]
    unfold pairPoint at hcp
    congr 1
    split
    · exact encodeUtf8_eq (by unfold Scalar; omega)
    · rw [charFromU32_scalar (by unfold Scalar; omega)]
      exact encodeUtf8_eq (by unfold Scalar; omega)
  | @broken h1 h2 h3 h4 g1 g2 g3 g4 u o _ _ hq hs hg hp _ ih =>
    rw [unesc_pair (by rw [quad_hex4 hq, surrogate_iff]; exact hs), ih]
    unfold pair4
    rw [quad_radix hg]
    cases o with
    | none => simp only; rw [show charFromU32 0xFFFD = 0xFFFD by decide, fffd]
    | some v =>
      simp only
      rw [quad_hex4 hq, utf16Decode_broken (hp v rfl), show charFromU32 0xFFFD = 0xFFFD by decide, fffd]
  | lone hq hs hr _ ih =>
    rw [unesc_alone (by rw [quad_hex4 hq, surrogate_iff]; exact hs) hr, ih, quad_hex4 hq, charFromU32_surrogate hs, fffd]

/-- The rules cover every sequence of bytes. -/
theorem unquoted_total (b : Bytes) : ∃ t, Unquoted b t := by
  generalize hn : b.length = n
  induction n using Nat.strongRecOn generalizing b with
  | ind n ih =>
    have next : ∀ r : Bytes, r.length < n → ∃ t, Unquoted r t := fun r h => ih _ h r rfl
    match b with
    | [] => exact ⟨_, .ends .nil⟩
    | c :: r =>
      simp only [List.length_cons] at hn
      by_cases h1 : c < 0x20
      · exact ⟨_, .ends (.control h1)⟩
      by_cases h2 : c = c! '\\'
      · subst h2
        match r with
        | [] => exact ⟨_, .ends .lone⟩
        | e :: r =>
          simp only [List.length_cons] at hn
          by_cases he : IsSimpleEsc e
          · obtain ⟨o, ho⟩ := simpleEsc_table he
            obtain ⟨t, ht⟩ := next r (by omega)
            exact ⟨_, .esc ho ht⟩
          by_cases hu : e = c! 'u'
          · subst hu
            match r with
            | [] => exact ⟨_, .ends (.short (by simp))⟩
            | [_] => exact ⟨_, .ends (.short (by simp))⟩
            | [_, _] => exact ⟨_, .ends (.short (by simp))⟩
            | [_, _, _] => exact ⟨_, .ends (.short (by simp))⟩
            | h1 :: h2 :: h3 :: h4 :: r =>
              simp only [List.length_cons] at hn
              have hq := radix_quad h1 h2 h3 h4
              obtain ⟨t, ht⟩ := next r (by omega)
              cases ho : fromStrRadix16 [h1, h2, h3, h4] with
              | none => rw [ho] at hq; exact ⟨_, .noNumber hq ht⟩
              | some u =>
                rw [ho] at hq
                by_cases hs : IsSurrogate u
                · by_cases hr : ∃ g1 g2 g3 g4 q, r = c! '\\' :: c! 'u' :: g1 :: g2 :: g3 :: g4 :: q
                  · obtain ⟨g1, g2, g3, g4, q, rfl⟩ := hr
                    simp only [List.length_cons] at hn
                    obtain ⟨t, ht⟩ := next q (by omega)
                    by_cases hp : ∃ v, fromStrRadix16 [g1, g2, g3, g4] = some v ∧ IsPair u v
                    · obtain ⟨v, hv, hp⟩ := hp
                      exact ⟨_, .pair hq (hv ▸ radix_quad g1 g2 g3 g4) hp rfl ht⟩
                    · exact ⟨_, .broken hq hs (radix_quad g1 g2 g3 g4) (fun v hv hp' => hp ⟨v, hv, hp'⟩) ht⟩
                  · exact ⟨_, .lone hq hs (fun g1 g2 g3 g4 q e => hr ⟨g1, g2, g3, g4, q, e⟩) ht⟩
                · exact ⟨_, .bmp hq hs ht⟩
          · exact ⟨_, .ends (.unknown he hu)⟩
      · obtain ⟨t, ht⟩ := next r (by omega)
        exact ⟨_, .plain (by grind) h2 ht⟩

theorem unquoted_iff {b t : Bytes} : Unquoted b t ↔ unesc b = t := by
  refine ⟨unquoted_unesc, fun h => ?_⟩
  obtain ⟨t', ht⟩ := unquoted_total b
  rw [unquoted_unesc ht] at h
  exact h ▸ ht

theorem told_iff {b s : Bytes} : Told b s ↔ s = if c! '\\' ∈ b then unesc b else b := by
  unfold Told
  split
  · rw [unquoted_iff, eq_comm]
  · rfl

/-! ### Values -/

theorem kindOf_quote (r : Bytes) : kindOf (c! '"' :: r) = .string := rfl

theorem qStr_esc {b : Bytes} (h : QuotedBody b) : ∀ r, qStr (b ++ c! '"' :: r) = some (b ++ [c! '"'], decide (c! '\\' ∈ b), r) := by
  induction h with
  | nil => intro r; rw [List.nil_append, qStr.eq_def]; simp
  | @plain c b h1 h2 _ ih =>
    intro r
    rw [List.cons_append, qStr.eq_def]
    simp only
    rw [if_neg h1, if_neg h2, ih]
    simp [push1, h2.symm]
  | @esc e b _ ih =>
    intro r
    rw [List.cons_append, List.cons_append, qStr.eq_def]
    simp only
    rw [if_neg (by decide), if_pos trivial, ih]
    simp [push1, setEsc]

/-- The text of a string, and what is read from it. -/
theorem Handed.string {v : Value} (h : Handed v) (he : v.exists = true) (hk : v.kind = .string) :
    ∃ b s, QuotedBody b ∧ Told b s ∧ v.json = c! '"' :: (b ++ [c! '"']) ∧ v.str = .ok s ∧ v.i64 = .ok (rawToI64 s) ∧
      v.u64 = .ok (rawToU64 s) ∧ v.f64 = .ok (rawToF64 s) := by
  have hn := exists_json.1 he
  have hs := h.ownText hn
  have hko := C62_kind h he
  rw [hk] at hko
  obtain ⟨c, r, e⟩ := List.exists_cons_of_ne_nil hn
  have hc : c = c! '"' := by
    rw [e] at hko
    unfold kindOf at hko
    simp only at hko
    grind
  subst hc
  rw [e] at hs
  have hp : pParse 0 (c! '"' :: r) = tokVal 0 (leafTok (c! '"' :: r)).1 := by
    rw [pParse, if_neg (by decide), if_neg (by decide), if_neg (by decide), if_pos (by simp)]
  rw [hp, leafTok] at hs
  simp only [if_true] at hs
  rcases qStr_cases r with ⟨b, q, f, e1, hb, e2⟩ | ⟨e2, _⟩
  · have e3 := qStr_esc hb q
    rw [← e1, e2] at e3
    simp only [Option.some.injEq, Prod.mk.injEq, true_and, and_true] at e3
    rw [e2] at hs
    simp only [tokVal] at hs
    have hj : v.json = c! '"' :: (b ++ [c! '"']) := by rw [hs.json, mkVal_json]
    subst e3
    refine ⟨b, if c! '\\' ∈ b then unesc b else b, hb, told_iff.2 rfl, hj, ?_⟩
    generalize hw : mkVal (c! '"' :: (b ++ [c! '"'])) (some 0) (escBit (decide (c! '\\' ∈ b)) ||| INFO_STRING) = w at hs
    have hwk : w.kind = .string := by rw [← hs.kind, hk]
    have hwj : w.json = c! '"' :: (b ++ [c! '"']) := by rw [← hs.json, hj]
    have main : w.str = .ok (if c! '\\' ∈ b then unesc b else b) ∧ w.strForNum = .ok (if c! '\\' ∈ b then unesc b else b) := by
      unfold Value.str Value.strForNum
      rw [hwk, hwj]
      simp only
      by_cases hm : c! '\\' ∈ b
      · have : w.info &&& INFO_ESC = INFO_ESC ∧ w.uescstr = unescQ (c! '"' :: (b ++ [c! '"'])) := by
          rw [← hw]
          unfold mkVal
          simp only [hm, decide_true]
          rw [if_pos (by decide)]
          exact ⟨(by decide : (escBit true ||| INFO_STRING) &&& INFO_ESC = INFO_ESC), rfl⟩
        rw [if_pos this.1, if_pos this.1, if_pos hm, this.2, unescQ_quoted, unescape_quoted]
        exact ⟨rfl, rfl⟩
      · have : ¬ w.info &&& INFO_ESC = INFO_ESC := by
          rw [← hw]
          unfold mkVal
          simp only [hm, decide_false]
          rw [if_neg (by decide)]
          exact (by decide : ¬ (escBit false ||| INFO_STRING) &&& INFO_ESC = INFO_ESC)
        rw [if_neg this, if_neg this, if_neg hm, stripQuotes_quoted]
        exact ⟨rfl, rfl⟩
    refine ⟨by rw [hs.str, main.1], ?_, ?_, ?_⟩
    · rw [hs.i64]; unfold Value.i64; rw [hwk]; simp only; rw [main.2]; rfl
    · rw [hs.u64]; unfold Value.u64; rw [hwk]; simp only; rw [main.2]; rfl
    · rw [hs.f64]; unfold Value.f64; rw [hwk]; simp only; rw [main.2]; rfl
  · rw [e2] at hs
    have hj := hs.json
    rw [e] at hj
    simp [tokVal] at hj

theorem quoted_inj {b b' : Bytes} (h : c! '"' :: (b ++ [c! '"']) = c! '"' :: (b' ++ [c! '"'])) : b = b' := by simpa using h

theorem told_one {b s s' : Bytes} (h : Told b s) (h' : Told b s') : s = s' := by rw [told_iff] at h h'; rw [h, h']

theorem strOf_string {b s : Bytes} (h : StrOf (c! '"' :: (b ++ [c! '"'])) s) : Told b s := by
  generalize hx : c! '"' :: (b ++ [c! '"']) = x at h
  cases h with
  | string _ h => rw [quoted_inj hx]; exact h
  | self h => rw [← hx, kindOf_quote] at h; simp at h
  | true h => rw [← hx, kindOf_quote] at h; simp at h
  | false h => rw [← hx, kindOf_quote] at h; simp at h
  | null h => rw [← hx, kindOf_quote] at h; simp at h

theorem strOf_one {x s s' : Bytes} (h : StrOf x s) (h' : StrOf x s') : s = s' := by
  cases h with
  | string _ h => exact told_one h (strOf_string h')
  | self h =>
    cases h' with
    | string _ _ => rw [kindOf_quote] at h; simp at h
    | self _ => rfl
    | true h' => rw [h'] at h; simp at h
    | false h' => rw [h'] at h; simp at h
    | null h' => rw [h'] at h; simp at h
  | true h =>
    cases h' with
    | string _ _ => rw [kindOf_quote] at h; simp at h
    | self h' => rw [h] at h'; simp at h'
    | true _ => rfl
    | false h' => rw [h'] at h; simp at h
    | null h' => rw [h'] at h; simp at h
  | false h =>
    cases h' with
    | string _ _ => rw [kindOf_quote] at h; simp at h
    | self h' => rw [h] at h'; simp at h'
    | true h' => rw [h'] at h; simp at h
    | false _ => rfl
    | null h' => rw [h'] at h; simp at h
  | null h =>
    cases h' with
    | string _ _ => rw [kindOf_quote] at h; simp at h
    | self h' => rw [h] at h'; simp at h'
    | true h' => rw [h'] at h; simp at h
    | false h' => rw [h'] at h; simp at h
    | null _ => rfl

theorem numText_string {b t : Bytes} (h : NumTextOf (c! '"' :: (b ++ [c! '"'])) t) : Told b t := by
  generalize hx : c! '"' :: (b ++ [c! '"']) = x at h
  cases h with
  | string _ h => rw [quoted_inj hx]; exact h
  | number h => rw [← hx, kindOf_quote] at h; simp at h

theorem numText_one {x t t' : Bytes} (h : NumTextOf x t) (h' : NumTextOf x t') : t = t' := by
  cases h with
  | string _ h => exact told_one h (numText_string h')
  | number h =>
    cases h' with
    | string _ _ => rw [kindOf_quote] at h; simp at h
    | number _ => rfl

theorem numText_kind {x t : Bytes} (h : NumTextOf x t) : kindOf x = .string ∨ kindOf x = .number := by
  cases h with
  | string _ _ => exact .inl rfl
  | number h => exact .inr h

theorem numberOf_one {α : Type} {R : Bytes → α → Prop} {one zero : α} (hR : ∀ t m n, R t m → R t n → m = n) {x : Bytes} {m n : α}
    (h : NumberOf R one zero x m) (h' : NumberOf R one zero x n) : m = n := by
  cases h with
  | read h1 h2 =>
    cases h' with
    | read g1 g2 => rw [numText_one h1 g1] at h2; exact hR _ _ _ h2 g2
    | true g => rcases numText_kind h1 with e | e <;> rw [g] at e <;> cases e
    | other g1 g2 _ => rcases numText_kind h1 with e | e <;> contradiction
  | true h =>
    cases h' with
    | read g1 _ => rcases numText_kind g1 with e | e <;> rw [h] at e <;> cases e
    | true _ => rfl
    | other _ _ g => exact absurd h g
  | other h1 h2 h3 =>
    cases h' with
    | read g1 _ => rcases numText_kind g1 with e | e <;> contradiction
    | true g => exact absurd g h3
    | other _ _ _ => rfl

theorem signed_one {t : Bytes} {m n : Int} (h : SignedOf t m) (h' : SignedOf t n) : m = n := by
  obtain ⟨k, hk⟩ := (C46_determined t).2.1
  rw [(hk m).1 h, (hk n).1 h']

theorem unsigned_one {t : Bytes} {m n : Nat} (h : UnsignedOf t m) (h' : UnsignedOf t n) : m = n := by
  obtain ⟨k, hk⟩ := (C46_determined t).2.2
  rw [(hk m).1 h, (hk n).1 h']

theorem float_one {t : Bytes} {m n : F64} (h : FloatOf t m) (h' : FloatOf t n) : m = n := by
  obtain ⟨k, hk⟩ := (C46_determined t).1
  rw [(hk m).1 h, (hk n).1 h']

theorem boolOf_one {x : Bytes} {a b : Bool} (h : BoolOf x a) (h' : BoolOf x b) : a = b := by
  have apart : ∀ x ∈ trueTexts, x ∉ falseTexts := by decide +kernel
  cases h with
  | yes h =>
    cases h' with
    | yes _ => rfl
    | no h' => exact absurd h' (apart _ h)
    | num g _ _ => exact absurd h g
  | no h =>
    cases h' with
    | yes h' => exact absurd h (apart _ h')
    | no _ => rfl
    | num _ g _ => exact absurd h g
  | num h1 h2 h3 =>
    cases h' with
    | yes g => exact absurd g h1
    | no g => exact absurd g h2
    | num _ _ g =>
      rw [numberOf_one (R := SignedOf) (fun _ _ _ => signed_one) h3 g]

/-- Everything that is read from a value, by its text. -/
theorem Handed.reads {v : Value} (h : Handed v) (he : v.exists = true) :
    (∃ s, v.str = .ok s ∧ StrOf v.json s) ∧ (∃ n, v.i64 = .ok n ∧ I64Of v.json n) ∧ (∃ n, v.u64 = .ok n ∧ U64Of v.json n) ∧
      (∃ x, v.f64 = .ok x ∧ F64Of v.json x) := by
  have hk := C62_kind h he
  by_cases hs : v.kind = .string
  · obtain ⟨b, s, h1, h2, h3, h4, h5, h6, h7⟩ := h.string he hs
    rw [h3]
    exact ⟨⟨_, h4, .string h1 h2⟩, ⟨_, h5, .read (.string h1 h2) (signedOf_raw _)⟩, ⟨_, h6, .read (.string h1 h2) (unsignedOf_raw _)⟩,
      ⟨_, h7, .read (.string h1 h2) (floatOf_iff.2 rfl)⟩⟩
  by_cases hn : v.kind = .number
  · obtain ⟨x, n, m, h1, h2, h3, h4, h5, h6⟩ := C46_number hn
    rw [hn] at hk
    have ht : NumTextOf v.json v.json := .number hk.symm
    refine ⟨⟨v.json, by unfold Value.str; rw [hn], .self (.inl hk.symm)⟩, ⟨_, h3, .read ht h4⟩, ⟨_, h5, .read ht h6⟩, ⟨_, h1, .read ht h2⟩⟩
  by_cases ht : v.kind = .true
  · obtain ⟨h1, h2, h3⟩ := (C46_others v).1 ht
    rw [ht] at hk
    exact ⟨⟨_, by unfold Value.str; rw [ht], .true hk.symm⟩, ⟨_, h1, .true hk.symm⟩, ⟨_, h2, .true hk.symm⟩, ⟨_, h3, .true hk.symm⟩⟩
  · obtain ⟨h1, h2, h3⟩ := (C46_others v).2 ht hn hs
    rw [hk] at hs hn ht
    refine ⟨?_, ⟨_, h1, .other hs hn ht⟩, ⟨_, h2, .other hs hn ht⟩, ⟨_, h3, .other hs hn ht⟩⟩
    unfold Value.str
    rw [hk]
    cases hx : kindOf v.json with
    | string => exact absurd hx hs
    | number => exact absurd hx hn
    | true => exact absurd hx ht
    | false => exact ⟨_, rfl, .false hx⟩
    | null => exact ⟨_, rfl, .null hx⟩
    | object => exact ⟨_, rfl, .self (.inr (.inl hx))⟩
    | array => exact ⟨_, rfl, .self (.inr (.inr hx))⟩

theorem ok_iff_of {α : Type} {x : Res α} {P : α → Prop} (h : ∃ a, x = .ok a ∧ P a) (one : ∀ {a b}, P a → P b → a = b) (a : α) :
    x = .ok a ↔ P a := by
  obtain ⟨a', h1, h2⟩ := h
  constructor
  · intro h; rw [h1] at h; cases h; exact h2
  · intro h; rw [h1, one h2 h]

/-- The truth value, also of a missing value that is no unclosed string. -/
theorem bool_any {v : Value} {n : Int} (hi : v.i64 = .ok n) (hn : I64Of v.json n) : ∃ b, v.bool = .ok b ∧ BoolOf v.json b := by
  obtain ⟨h1, h2, _, h4⟩ := C39_bool v
  by_cases ht : v.json ∈ trueTexts
  · exact ⟨_, h1 ht, .yes ht⟩
  by_cases hf : v.json ∈ falseTexts
  · exact ⟨_, h2 hf, .no hf⟩
  · exact ⟨_, h4 ht hf n hi, .num ht hf hn⟩

/-! ### Queries -/

theorem rpv_quoted {b : Bytes} (hb : b ≠ []) :
    queryRpv (c! '"' :: (b ++ [c! '"'])) = .ok (if c! '\\' ∈ b then unesc b else b) := by
  unfold queryRpv
  have hl : (c! '"' :: (b ++ [c! '"'])).length > 2 := by
    have := List.length_pos_iff.2 hb
    simp; omega
  rw [if_pos hl]
  have hA : At (c! '"' :: (b ++ [c! '"'])) 0 (c! '"' :: (b ++ [c! '"'])) := At.zero _
  have hB : At (c! '"' :: (b ++ [c! '"'])) (b.length + 1) [c! '"'] := hA.cons.append' (by omega)
  rw [hA.idx, show (c! '"' :: (b ++ [c! '"'])).length - 1 = b.length + 1 by simp, hB.idx]
  simp only [ok_bind]
  rw [if_pos ⟨trivial, trivial⟩]
  have hm : c! '\\' ∈ c! '"' :: (b ++ [c! '"']) ↔ c! '\\' ∈ b := by simp
  by_cases h : c! '\\' ∈ b
  · rw [if_pos (hm.2 h), if_pos h, unescape_quoted]
  · rw [if_neg (fun x => h (hm.1 x)), if_neg h, hA.cons.slice' (t := b) (by omega)]

theorem rpv_self {rh : Bytes} (h : ∀ b, rh = c! '"' :: (b ++ [c! '"']) → b = []) : queryRpv rh = .ok rh := by
  unfold queryRpv
  split
  · rename_i hl
    match rh, hl with
    | c :: r, hl =>
      have hr : r ≠ [] := by rintro rfl; simp at hl
      have e : r = r.dropLast ++ [r.getLast hr] := (List.dropLast_concat_getLast hr).symm
      have hA := At.zero (c :: r)
      have hB : At (c :: r) ((c :: r).length - 1) [r.getLast hr] := by
        have : At (c :: r) 1 (r.dropLast ++ [r.getLast hr]) := e ▸ hA.cons
        exact this.append' (by simp; have := List.length_pos_iff.2 hr; omega)
      rw [hA.idx, hB.idx]
      simp only [ok_bind]
      rw [if_neg]
      rintro ⟨h1, h2⟩
      have := h r.dropLast (by rw [h1, ← h2, ← e])
      have hlen : r.dropLast.length = 0 := by rw [this]; rfl
      simp at hlen hl
      omega
  · rfl

theorem rightSide_rpv {rh r : Bytes} (h : RightSide rh r) : queryRpv rh = .ok r := by
  cases h with
  | quoted hb h => rw [rpv_quoted hb, told_iff.1 h]
  | self h => exact rpv_self h

theorem rightSide_total (rh : Bytes) : ∃ r, RightSide rh r := by
  by_cases h : ∀ b, rh = c! '"' :: (b ++ [c! '"']) → b = []
  · exact ⟨_, .self h⟩
  · simp only [not_forall] at h
    obtain ⟨b, rfl, hb⟩ := h
    exact ⟨_, .quoted hb (told_iff.2 rfl)⟩

theorem rightSide_one {rh r r' : Bytes} (h : RightSide rh r) (h' : RightSide rh r') : r = r' := by
  have := rightSide_rpv h
  rw [rightSide_rpv h'] at this
  cases this; rfl

/-- What the eight operators are called. -/
theorem op_cases (op : Bytes) : (∃ o : Op, op = o.name) ∨ ∀ o : Op, op ≠ o.name := by
  by_cases h : ∃ o : Op, op = o.name
  · exact .inl h
  · exact .inr (fun o e => h ⟨o, e⟩)

theorem op_ne (o : Op) : o.name ≠ [] := by cases o <;> simp [Op.name]

theorem name_inj {a b : Op} (h : a.name = b.name) : a = b := by
  cases a <;> cases b <;> first | rfl | simp [Op.name] at h

/-- An answer is determined. -/
theorem answer_one {w : View} {op r : Bytes} {a b : Bool} (h : Answer w op r a) (h' : Answer w op r b) : a = b := by
  generalize ho : op = p at h'
  cases h with
  | missing =>
    cases h' with
    | missing => rfl
    | «exists» h => exact absurd rfl h
    | unknown h _ _ => exact absurd rfl h
  | «exists» h =>
    cases h' with
    | missing => exact absurd rfl h
    | «exists» _ => rfl
    | string _ => exact absurd ho.symm (op_ne _)
    | number _ _ _ _ => exact absurd ho.symm (op_ne _)
    | bool => exact absurd ho.symm (op_ne _)
    | other => exact absurd ho.symm (op_ne _)
    | unknown _ h _ => exact absurd ho.symm h
  | string h =>
    cases h' with
    | «exists» _ => exact absurd ho (op_ne _)
    | string h' =>
      have := name_inj ho
      subst this
      exact Bool.eq_iff_iff.2 (h.trans h'.symm)
    | unknown _ _ h => exact absurd ho.symm (h _)
  | number f1 l1 e1 g1 =>
    cases h' with
    | «exists» _ => exact absurd ho (op_ne _)
    | number f2 l2 e2 g2 =>
      have := name_inj ho
      subst this
      have := float_one f1 f2
      subst this
      rw [Bool.eq_iff_iff.2 (l1.trans l2.symm), Bool.eq_iff_iff.2 (e1.trans e2.symm), Bool.eq_iff_iff.2 (g1.trans g2.symm)]
    | unknown _ _ h => exact absurd ho.symm (h _)
  | bool =>
    cases h' with
    | «exists» _ => exact absurd ho (op_ne _)
    | bool =>
      have := name_inj ho
      subst this
      rfl
    | unknown _ _ h => exact absurd ho.symm (h _)
  | other =>
    cases h' with
    | «exists» _ => exact absurd ho (op_ne _)
    | other => rfl
    | unknown _ _ h => rfl
  | unknown h1 h2 h3 =>
    cases h' with
    | missing => exact absurd rfl h1
    | «exists» _ => exact absurd ho h2
    | string _ => exact absurd ho (h3 _)
    | number _ _ _ _ => exact absurd ho (h3 _)
    | bool => exact absurd ho (h3 _)
    | other => rfl
    | unknown _ _ _ => rfl

theorem viewed_one {x : Bytes} {w w' : View} (h : Viewed x w) (h' : Viewed x w') : w = w' := by
  cases h with
  | missing =>
    cases h' with
    | missing => rfl
    | string h _ => simp [kindOf] at h
    | number h _ => simp [kindOf] at h
    | true h => simp [kindOf] at h
    | false h => simp [kindOf] at h
    | other h _ => exact absurd rfl h
  | string k h =>
    cases h' with
    | missing => simp [kindOf] at k
    | string _ h' => rw [strOf_one h h']
    | number k' _ => rw [k'] at k; simp at k
    | true k' => rw [k'] at k; simp at k
    | false k' => rw [k'] at k; simp at k
    | other _ k' => rw [k] at k'; simp at k'
  | number k h =>
    cases h' with
    | missing => simp [kindOf] at k
    | string k' _ => rw [k'] at k; simp at k
    | number _ h' => rw [float_one h h']
    | true k' => rw [k'] at k; simp at k
    | false k' => rw [k'] at k; simp at k
    | other _ k' => rw [k] at k'; simp at k'
  | true k =>
    cases h' with
    | missing => simp [kindOf] at k
    | string k' _ => rw [k'] at k; simp at k
    | number k' _ => rw [k'] at k; simp at k
    | true _ => rfl
    | false k' => rw [k'] at k; simp at k
    | other _ k' => rw [k] at k'; simp at k'
  | false k =>
    cases h' with
    | missing => simp [kindOf] at k
    | string k' _ => rw [k'] at k; simp at k
    | number k' _ => rw [k'] at k; simp at k
    | true k' => rw [k'] at k; simp at k
    | false _ => rfl
    | other _ k' => rw [k] at k'; simp at k'
  | other hn k =>
    cases h' with
    | missing => exact absurd rfl hn
    | string k' _ => rw [k'] at k; simp at k
    | number k' _ => rw [k'] at k; simp at k
    | true k' => rw [k'] at k; simp at k
    | false k' => rw [k'] at k; simp at k
    | other _ _ => rfl

theorem answers_one {x op rh : Bytes} {a b : Bool} (h : Answers x op rh a) (h' : Answers x op rh b) : a = b := by
  cases h with
  | plain r1 t1 l1 a1 =>
    cases h' with
    | plain r2 t2 l2 a2 =>
      have := rightSide_one r1 r2; subst this
      have := viewed_one l1 l2; subst this
      exact answer_one a1 a2
    | truth r2 _ _ =>
      have := rightSide_one r1 r2; subst this
      exact absurd rfl (t1 _ (by simp))
  | truth r1 b1 a1 =>
    cases h' with
    | plain r2 t2 _ _ =>
      have := rightSide_one r1 r2; subst this
      exact absurd rfl (t2 _ (by simp))
    | truth r2 b2 a2 =>
      have := rightSide_one r1 r2
      simp only [List.cons.injEq, true_and] at this
      subst this
      rw [boolOf_one b1 b2] at a1
      exact answer_one a1 a2

/-- The comparison, for what is seen of the value. -/
theorem compare_unknown {v : Value} (h : Handed v) (he : v.exists = true) {op : Bytes} (h1 : op ≠ []) (h2 : ∀ o : Op, op ≠ o.name)
    (r : Bytes) : queryCompare v op r = .ok false := by
  have n1 := h2 .eq
  have n2 := h2 .ne
  have n3 := h2 .lt
  have n4 := h2 .le
  have n5 := h2 .gt
  have n6 := h2 .ge
  have n7 := h2 .like
  have n8 := h2 .unlike
  simp only [Op.name, ne_eq] at n1 n2 n3 n4 n5 n6 n7 n8
  obtain ⟨⟨s, hs, _⟩, _, _, ⟨x, hx, _⟩⟩ := h.reads he
  unfold queryCompare
  rw [if_neg (by rw [he]; simp), if_neg h1]
  split <;> simp [hs, hx, strOp, numOp, trueOp, falseOp, n1, n2, n3, n4, n5, n6, n7, n8]

theorem strOp_any (op : Op) (s r : Bytes) : ∃ b, strOp op.name r s = .ok b ∧ (b = true ↔ op.onTexts s r) := by
  have hne := cmpBytes_eq s r
  have hlt := cmpBytes_lt s r
  have hgt := cmpBytes_gt s r
  cases op with
  | eq => exact ⟨_, rfl, by simp [Op.onTexts, Op.onStrings]⟩
  | ne => exact ⟨_, rfl, by simp [Op.onTexts, Op.onStrings]⟩
  | lt => exact ⟨_, rfl, by simp [Op.onTexts, Op.onStrings, hlt]⟩
  | le =>
    refine ⟨_, rfl, ?_⟩
    simp only [decide_eq_true_eq, Op.onTexts, Op.onStrings, ← hlt, ← hne]
    cases cmpBytes s r <;> simp
  | gt => exact ⟨_, rfl, by simp [Op.onTexts, Op.onStrings, hgt]⟩
  | ge =>
    refine ⟨_, rfl, ?_⟩
    simp only [decide_eq_true_eq, Op.onTexts, Op.onStrings, ← hgt, ← hne]
    cases cmpBytes s r <;> simp
  | like => exact C16_pmatch_code r s
  | unlike =>
    obtain ⟨b, h1, h2⟩ := C16_pmatch_code r s
    refine ⟨!b, ?_, by simp [Op.onTexts, ← h2]⟩
    show (do .ok (!(← pmatch r s))) = _
    rw [h1]; rfl

/-- What is seen of a value decides the comparison. -/
theorem compare_any {v : Value} (h : Handed v) (op r : Bytes) : ∃ w b, Viewed v.json w ∧ Answer w op r b ∧ queryCompare v op r = .ok b := by
  by_cases he : v.exists = true
  · have hk := C62_kind h he
    have hn := exists_json.1 he
    have hw : ∃ w, w ≠ .missing ∧ Viewed v.json w ∧ ∀ o : Op, ∃ b, Answer w o.name r b ∧ queryCompare v o.name r = .ok b := by
      obtain ⟨⟨s, h1, h2⟩, _, _, ⟨x, h3, h4⟩⟩ := h.reads he
      have ho : ∀ o : Op, ¬ (o.name = []) := op_ne
      have start : ∀ o : Op, queryCompare v o.name r = match v.kind with
          | .string => do strOp o.name r (← v.str)
          | .number => do .ok (numOp o.name (← v.f64) (rawToF64 r))
          | .true => .ok (trueOp o.name r)
          | .false => .ok (falseOp o.name r)
          | _ => .ok false := by
        intro o
        unfold queryCompare
        rw [if_neg (by rw [he]; simp), if_neg (op_ne o)]
        cases v.kind <;> rfl
      cases ks : v.kind with
      | string =>
        rw [ks] at hk start
        refine ⟨.string s, by simp, .string hk.symm h2, fun o => ?_⟩
        rw [start]
        simp only [h1, ok_bind]
        obtain ⟨b, g1, g2⟩ := strOp_any o s r
        exact ⟨b, .string g2, g1⟩
      | number =>
        rw [ks] at hk start
        rw [f64_number ks] at h3
        cases h3
        refine ⟨.number (rawToF64 v.json), by simp, .number hk.symm (floatOf_iff.2 rfl), fun o => ?_⟩
        rw [start]
        simp only [f64_number ks, ok_bind]
        refine ⟨o.holds ((rawToF64 v.json).lt (rawToF64 r)) ((rawToF64 v.json).eq (rawToF64 r)) ((rawToF64 r).lt (rawToF64 v.json)),
          .number (floatOf_iff.2 rfl) (lt_below _ _) (eq_equal _ _) (lt_below _ _), ?_⟩
        cases o <;> first | rfl | (show Except.ok _ = _; rw [F64.eq_comm' (rawToF64 v.json)]; rfl)
      | true =>
        rw [ks] at hk start
        exact ⟨.bool true, by simp, .true hk.symm, fun o => ⟨_, .bool, by rw [start, onBool_eq]; rfl⟩⟩
      | false =>
        rw [ks] at hk start
        exact ⟨.bool false, by simp, .false hk.symm, fun o => ⟨_, .bool, by rw [start, onBool_eq]; rfl⟩⟩
      | null =>
        rw [ks] at hk start
        exact ⟨.other, by simp, .other hn (.inl hk.symm), fun o => ⟨_, .other, start o⟩⟩
      | object =>
        rw [ks] at hk start
        exact ⟨.other, by simp, .other hn (.inr (.inl hk.symm)), fun o => ⟨_, .other, start o⟩⟩
      | array =>
        rw [ks] at hk start
        exact ⟨.other, by simp, .other hn (.inr (.inr hk.symm)), fun o => ⟨_, .other, start o⟩⟩
    obtain ⟨w, w1, w2, w3⟩ := hw
    by_cases h0 : op = []
    · subst h0
      refine ⟨w, true, w2, .exists w1, ?_⟩
      unfold queryCompare
      rw [if_neg (by rw [he]; simp), if_pos rfl]
    · rcases op_cases op with ⟨o, rfl⟩ | h1
      · obtain ⟨b, h1, h2⟩ := w3 o
        exact ⟨w, b, w2, h1, h2⟩
      · exact ⟨w, false, w2, .unknown w1 h0 h1, compare_unknown h he h0 h1 r⟩
  · have hj : v.json = [] := by
      by_contra hc
      exact he (exists_json.2 hc)
    refine ⟨.missing, false, hj ▸ .missing, .missing, ?_⟩
    unfold queryCompare
    rw [if_pos (by simpa using he)]

theorem compare_bool (t : Bool) (op r : Bytes) : ∃ b, Answer (.bool t) op r b ∧ queryCompare (boolValue t) op r = .ok b := by
  have he : (boolValue t).exists = true := by cases t <;> rfl
  by_cases h0 : op = []
  · subst h0
    refine ⟨true, .exists (by simp), ?_⟩
    unfold queryCompare
    rw [if_neg (by rw [he]; simp), if_pos rfl]
  rcases op_cases op with ⟨o, rfl⟩ | h1
  · refine ⟨_, .bool, ?_⟩
    unfold queryCompare
    rw [if_neg (by rw [he]; simp), if_neg (op_ne o), onBool_eq]
    cases t <;> rfl
  · refine ⟨false, .unknown (by simp) h0 h1, ?_⟩
    have n1 := h1 .eq
    have n2 := h1 .ne
    have n3 := h1 .lt
    have n4 := h1 .le
    have n5 := h1 .gt
    have n6 := h1 .ge
    simp only [Op.name, ne_eq] at n1 n2 n3 n4 n5 n6
    unfold queryCompare
    rw [if_neg (by rw [he]; simp), if_neg h0]
    cases t
    · show Except.ok (falseOp op r) = _
      simp [falseOp, n1, n2, n3, n4]
    · show Except.ok (trueOp op r) = _
      simp [trueOp, n1, n2, n5, n6]

/-- What a missing value is read as. -/
theorem missing_i64 {v : Value} (hj : v.json = []) (hk : v.kind = .null) : v.i64 = .ok 0 ∧ I64Of v.json 0 := by
  refine ⟨by unfold Value.i64; rw [hk], ?_⟩
  rw [hj]
  exact .other (by decide) (by decide) (by decide)

/-- The answer to every query. -/
theorem matches_any {v : Value} (h : Handed v) (hu : v.exists = true ∨ v.kind ≠ .string) (op rh : Bytes) :
    ∃ b, queryMatches v op rh = .ok b ∧ Answers v.json op rh b := by
  obtain ⟨r, hr⟩ := rightSide_total rh
  unfold queryMatches
  rw [rightSide_rpv hr, ok_bind]
  obtain ⟨w, b, h1, h2, h3⟩ := compare_any h op r
  cases r with
  | nil => exact ⟨b, h3, .plain hr (by simp) h1 h2⟩
  | cons c r =>
    simp only
    split
    · rename_i hc
      subst hc
      have hb : ∃ t, v.bool = .ok t ∧ BoolOf v.json t := by
        by_cases he : v.exists = true
        · obtain ⟨_, ⟨n, g1, g2⟩, _⟩ := h.reads he
          exact bool_any g1 g2
        · have hj : v.json = [] := by
            by_contra hc
            exact he (exists_json.2 hc)
          have hk : v.kind = .null := by
            rcases C62_missing h (by simpa using he) with e | e
            · exact e
            · exact absurd e (hu.resolve_left he)
          obtain ⟨g1, g2⟩ := missing_i64 hj hk
          exact bool_any g1 g2
      obtain ⟨t, t1, t2⟩ := hb
      obtain ⟨b', c1, c2⟩ := compare_bool t op r
      rw [t1, ok_bind]
      exact ⟨b', c2, .truth hr t2 c1⟩
    · rename_i hc
      exact ⟨b, h3, .plain hr (by simpa using hc) h1 h2⟩

/-- An answer, if there is one, also for a missing value that is an unclosed string. -/
theorem matches_sound {v : Value} (h : Handed v) {op rh : Bytes} {b : Bool} (hb : queryMatches v op rh = .ok b) : Answers v.json op rh b := by
  by_cases hu : v.exists = true ∨ v.kind ≠ .string
  · obtain ⟨b', h1, h2⟩ := matches_any h hu op rh
    rw [hb] at h1
    cases h1
    exact h2
  · simp only [not_or, not_not] at hu
    obtain ⟨he, hk⟩ := hu
    have hj : v.json = [] := by
      by_contra hc
      exact he (exists_json.2 hc)
    obtain ⟨r, hr⟩ := rightSide_total rh
    unfold queryMatches at hb
    rw [rightSide_rpv hr, ok_bind] at hb
    obtain ⟨w, b', h1, h2, h3⟩ := compare_any h op r
    cases r with
    | nil =>
      simp only [h3, Except.ok.injEq] at hb
      exact .plain hr (by simp) h1 (hb ▸ h2)
    | cons c r =>
      simp only at hb
      split at hb
      · rename_i hc
        subst hc
        have hi : ∀ n, v.i64 = .ok n → n = 0 := by
          intro n hn
          unfold Value.i64 Value.strForNum at hn
          rw [hk, hj] at hn
          simp only at hn
          split at hn
          · rw [unescape_eq] at hn
            have key : rawToI64 (unescQ []) = 0 := by decide +kernel
            rw [ok_bind, key] at hn
            exact (Except.ok.inj hn).symm
          · simp [stripQuotes, rpanic] at hn
        have hz : I64Of v.json 0 := by rw [hj]; exact .other (by decide) (by decide) (by decide)
        have ht : ∀ t, v.bool = .ok t → BoolOf v.json t := by
          intro t ht
          cases hn : v.i64 with
          | error e =>
            unfold Value.bool at ht
            rw [hn, hj] at ht
            simp at ht
          | ok n =>
            rw [hi n hn] at hn
            obtain ⟨t', g1, g2⟩ := bool_any hn hz
            rw [g1] at ht
            cases ht
            exact g2
        cases hbv : v.bool with
        | error e => rw [hbv] at hb; simp at hb
        | ok t =>
          rw [hbv, ok_bind] at hb
          obtain ⟨b2, c1, c2⟩ := compare_bool t op r
          rw [hb] at c2
          cases c2
          exact .truth hr (ht t hbv) c1
      · rename_i hc
        rw [h3, Except.ok.injEq] at hb
        exact .plain hr (by simpa using hc) h1 (hb ▸ h2)

end Gjson
