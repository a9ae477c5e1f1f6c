import Verif.Lemmas.Unescape
import Verif.Lemmas.Grammar
/-
Escaping and unescaping.
-/
namespace Gjson
open Spec

theorem u8_all (P : UInt8 → Prop) [DecidablePred P] (h : ∀ n : Fin 256, P (UInt8.ofNat n.val)) (c : UInt8) : P c := by
  have := h ⟨c.toNat, c.toNat_lt⟩
  simpa using this

theorem u8_all₂ (P : UInt8 → Prop) [DecidablePred P]
    (h : (List.range 256).all (fun n => decide (P (UInt8.ofNat n))) = true) (c : UInt8) : P c := by
  have := List.all_eq_true.1 h c.toNat (by simpa using c.toNat_lt)
  simpa using this

/-- How the escape of one byte reads back. -/
theorem escapeByte_cases (c : UInt8) :
    (0x20 ≤ c ∧ c ≠ c! '"' ∧ c ≠ c! '\\' ∧ escapeByte c = [c]) ∨
    (∃ e, IsSimpleEsc e ∧ simpleEscape e = some c ∧ escapeByte c = [c! '\\', e]) ∨
    (∃ h1 h2 h3 h4, IsHex h1 ∧ IsHex h2 ∧ IsHex h3 ∧ IsHex h4 ∧ simpleEscape c! 'u' = none ∧
      utf16IsSurrogate (hex4 [h1, h2, h3, h4]) = false ∧
      encodeUtf8 (charFromU32 (hex4 [h1, h2, h3, h4])) = [c] ∧
      escapeByte c = [c! '\\', c! 'u', h1, h2, h3, h4]) := by
  by_cases h1 : c = c! '"'
  · subst h1; exact .inr (.inl ⟨c! '"', by decide, by decide, by decide⟩)
  by_cases h2 : c = c! '\\'
  · subst h2; exact .inr (.inl ⟨c! '\\', by decide, by decide, by decide⟩)
  by_cases h3 : c = 8
  · subst h3; exact .inr (.inl ⟨c! 'b', by decide, by decide, by decide⟩)
  by_cases h4 : c = 12
  · subst h4; exact .inr (.inl ⟨c! 'f', by decide, by decide, by decide⟩)
  by_cases h5 : c = c! '\n'
  · subst h5; exact .inr (.inl ⟨c! 'n', by decide, by decide, by decide⟩)
  by_cases h6 : c = c! '\r'
  · subst h6; exact .inr (.inl ⟨c! 'r', by decide, by decide, by decide⟩)
  by_cases h7 : c = c! '\t'
  · subst h7; exact .inr (.inl ⟨c! 't', by decide, by decide, by decide⟩)
  by_cases h8 : c < 0x20
  · right; right
    refine ⟨c! '0', c! '0', hexDigitUpper (c >>> 4), hexDigitUpper (c &&& 0xF), by decide, by decide, ?_⟩
    have key : ∀ c : UInt8, c < 0x20 → IsHex (hexDigitUpper (c >>> 4)) ∧ IsHex (hexDigitUpper (c &&& 0xF)) ∧
        simpleEscape c! 'u' = none ∧
        utf16IsSurrogate (hex4 [c! '0', c! '0', hexDigitUpper (c >>> 4), hexDigitUpper (c &&& 0xF)]) = false ∧
        encodeUtf8 (charFromU32 (hex4 [c! '0', c! '0', hexDigitUpper (c >>> 4), hexDigitUpper (c &&& 0xF)])) = [c] :=
      u8_all₂ _ (by decide +kernel)
    obtain ⟨k1, k2, k3, k4, k5⟩ := key c h8
    refine ⟨k1, k2, k3, k4, k5, ?_⟩
    unfold escapeByte
    rw [if_pos (.inl h8), if_neg h1, if_neg h2, if_neg h3, if_neg h4, if_neg h5, if_neg h6, if_neg h7]
  · left
    refine ⟨by grind, h1, h2, ?_⟩
    unfold escapeByte
    rw [if_neg (by grind)]

theorem unesc_plain {c : UInt8} {r : Bytes} (h1 : ¬ c < c! ' ') (h2 : c ≠ c! '\\') :
    unesc (c :: r) = c :: unesc r := by
  rw [unesc.eq_def]; simp only; rw [if_neg h1, if_neg h2]

theorem unesc_esc {e o : UInt8} {r : Bytes} (h : simpleEscape e = some o) :
    unesc (c! '\\' :: e :: r) = o :: unesc r := by
  rw [unesc.eq_def]; simp only; rw [if_neg (by decide), if_pos trivial, h]

theorem unesc_bmp {h1 h2 h3 h4 : UInt8} {r : Bytes}
    (h : utf16IsSurrogate (hex4 [h1, h2, h3, h4]) = false) :
    unesc (c! '\\' :: c! 'u' :: h1 :: h2 :: h3 :: h4 :: r) =
      encodeUtf8 (charFromU32 (hex4 [h1, h2, h3, h4])) ++ unesc r := by
  rw [unesc.eq_def]; simp only
  have : simpleEscape 117 = none := by decide
  rw [if_neg (by decide), if_pos trivial, this]
  simp only
  rw [if_pos trivial, h]
  simp

theorem unesc_pair {h1 h2 h3 h4 g1 g2 g3 g4 : UInt8} {r : Bytes}
    (h : utf16IsSurrogate (hex4 [h1, h2, h3, h4]) = true) :
    unesc (c! '\\' :: c! 'u' :: h1 :: h2 :: h3 :: h4 :: c! '\\' :: c! 'u' :: g1 :: g2 :: g3 :: g4 :: r) =
      encodeUtf8 (pair4 (hex4 [h1, h2, h3, h4]) [g1, g2, g3, g4]) ++ unesc r := by
  conv => { lhs; rw [unesc.eq_def] }
  simp only
  have : simpleEscape 117 = none := by decide
  rw [if_neg (by decide), if_pos trivial, this]
  simp only
  rw [if_pos trivial, h]
  simp

theorem unesc_escape (s : Bytes) : unesc (s.flatMap escapeByte) = s := by
  induction s with
  | nil => rfl
  | cons c s ih =>
    rw [List.flatMap_cons]
    rcases escapeByte_cases c with ⟨h1, h2, h3, h4⟩ | ⟨e, h1, h2, h3⟩ | ⟨h1, h2, h3, h4, _, _, _, _, _, g1, g2, g3⟩
    · rw [h4, List.singleton_append, unesc_plain (by grind) h3, ih]
    · rw [h3]
      simp only [List.cons_append, List.nil_append]
      rw [unesc_esc h2, ih]
    · rw [g3]
      simp only [List.cons_append, List.nil_append]
      rw [unesc_bmp g1, g2, ih]
      rfl

theorem strBody_escape (s : Bytes) : StrBody (s.flatMap escapeByte) := by
  induction s with
  | nil => exact .nil
  | cons c s ih =>
    rw [List.flatMap_cons]
    rcases escapeByte_cases c with ⟨h1, h2, h3, h4⟩ | ⟨e, h1, h2, h3⟩ | ⟨h1, h2, h3, h4, g1, g2, g3, g4, _, _, _, g5⟩
    · rw [h4]; exact .plain h1 h2 h3 ih
    · rw [h3]; exact .esc h1 ih
    · rw [g5]; exact .uni g1 g2 g3 g4 ih

theorem strLit_escape (s : Bytes) : StrLit (escape s) :=
  ⟨_, strBody_escape s, by simp [escape, jsonString]⟩

/-! ### Hexadecimal -/

theorem hexVal_eq : ∀ c : UInt8, IsHex c → hexVal c = some (hexDigit c) ∧ hexDigit c < 16 :=
  u8_all₂ _ (by decide +kernel)

theorem hex_not_plus : ∀ c : UInt8, IsHex c → c ≠ c! '+' := u8_all₂ _ (by decide +kernel)

theorem codeUnit_lt {h1 h2 h3 h4 : UInt8} (a1 : IsHex h1) (a2 : IsHex h2) (a3 : IsHex h3) (a4 : IsHex h4) :
    codeUnit h1 h2 h3 h4 < 0x10000 := by
  have := (hexVal_eq _ a1).2
  have := (hexVal_eq _ a2).2
  have := (hexVal_eq _ a3).2
  have := (hexVal_eq _ a4).2
  unfold codeUnit; omega

theorem fromStrRadix16_hex {h1 h2 h3 h4 : UInt8} (a1 : IsHex h1) (a2 : IsHex h2) (a3 : IsHex h3) (a4 : IsHex h4) :
    fromStrRadix16 [h1, h2, h3, h4] = some (codeUnit h1 h2 h3 h4) := by
  have hlt := codeUnit_lt a1 a2 a3 a4
  unfold fromStrRadix16
  simp only
  rw [if_neg (hex_not_plus _ a1), if_neg (by simp)]
  have : hexDigits 0 [h1, h2, h3, h4] = some (codeUnit h1 h2 h3 h4) := by
    simp [hexDigits, (hexVal_eq _ a1).1, (hexVal_eq _ a2).1, (hexVal_eq _ a3).1, (hexVal_eq _ a4).1, codeUnit]
  rw [this]
  simp only
  rw [if_pos (by omega)]

theorem hex4_eq {h1 h2 h3 h4 : UInt8} (a1 : IsHex h1) (a2 : IsHex h2) (a3 : IsHex h3) (a4 : IsHex h4) :
    hex4 [h1, h2, h3, h4] = codeUnit h1 h2 h3 h4 := by
  unfold hex4; rw [fromStrRadix16_hex a1 a2 a3 a4]; rfl

/-! ### Code points and UTF-8 -/

/-- A Unicode scalar value. -/
def Scalar (cp : Nat) : Prop := cp < 0xD800 ∨ (0xE000 ≤ cp ∧ cp < 0x110000)

theorem charFromU32_scalar {cp : Nat} (h : Scalar cp) : charFromU32 cp = cp := by
  unfold charFromU32; unfold Scalar at h; rw [if_pos h]

theorem scalar_charFromU32 (cp : Nat) : Scalar (charFromU32 cp) := by
  unfold charFromU32
  split
  · assumption
  · unfold Scalar; omega

theorem encodeUtf8_eq {cp : Nat} (h : Scalar cp) : encodeUtf8 cp = utf8 cp := by
  unfold Scalar at h
  have hv : (Char.ofNat cp).val.toNat = cp := by
    have hvalid : cp.isValidChar := by
      rcases h with h | h
      · exact .inl h
      · exact .inr ⟨by omega, h.2⟩
    unfold Char.ofNat
    rw [dif_pos hvalid]
    simp [Char.ofNatAux]
  unfold utf8 String.utf8EncodeChar encodeUtf8
  rw [hv]
  simp only
  by_cases h1 : cp < 0x80
  · rw [if_pos h1, if_pos (by omega)]
  rw [if_neg h1, if_neg (show ¬ cp ≤ 127 by omega)]
  by_cases h2 : cp < 0x800
  · rw [if_pos h2, if_pos (by omega)]
    have e1 : 0xC0 + cp / 0x40 = cp / 64 % 32 + 192 := by omega
    rw [e1, Nat.add_comm 0x80]
  rw [if_neg h2, if_neg (show ¬ cp ≤ 2047 by omega)]
  by_cases h3 : cp < 0x10000
  · rw [if_pos h3, if_pos (by omega)]
    have e1 : 0xE0 + cp / 0x1000 = cp / 4096 % 16 + 224 := by omega
    rw [e1, Nat.add_comm 0x80, Nat.add_comm 0x80]
  rw [if_neg h3, if_neg (show ¬ cp ≤ 65535 by omega)]
  have e1 : 0xF0 + cp / 0x40000 = cp / 262144 % 8 + 240 := by omega
  rw [e1, Nat.add_comm 0x80, Nat.add_comm 0x80, Nat.add_comm 0x80]

/-- Supplementary code points in an odd plane (planes 1, 3, …, 15). -/
def OddPlane (cp : Nat) : Prop := cp / 0x10000 % 2 = 1

theorem utf16Decode_or {a b : Nat} (ha : a < 0x400) (hb : b < 0x400) :
    utf16Decode (0xD800 + a) (0xDC00 + b) =
      if a / 64 % 2 = 0 then 0x10000 + a * 0x400 + b else a * 0x400 + b := by
  unfold utf16Decode
  rw [if_pos (by omega)]
  have e1 : 0xD800 + a - 0xd800 = a := Nat.add_sub_cancel_left _ _
  have e2 : 0xDC00 + b - 0xdc00 = b := Nat.add_sub_cancel_left _ _
  rw [e1, e2]
  -- split `a` at bit 6
  have hsplit : a = (a / 128 * 2 + a / 64 % 2) * 64 + a % 64 := by omega
  have hor : ∀ x y : Nat, x % 2 ^ 16 = 0 → y < 2 ^ 16 → x ||| y = x + y := by
    intro x y hx hy
    have : x = 2 ^ 16 * (x / 2 ^ 16) := by omega
    rw [this, Nat.two_pow_add_eq_or_of_lt hy]
  have hor10 : ∀ x y : Nat, x % 2 ^ 10 = 0 → y < 2 ^ 10 → x ||| y = x + y := by
    intro x y hx hy
    have : x = 2 ^ 10 * (x / 2 ^ 10) := by omega
    rw [this, Nat.two_pow_add_eq_or_of_lt hy]
  rw [Nat.shiftLeft_eq]
  -- b + 0x10000 = 0x10000 ||| b, and a*2^10 = hi ||| lo
  have hb' : b + 0x10000 = 0x10000 ||| b := by
    rw [hor10 0x10000 b (by decide) (by omega)]; omega
  have ha' : a * 2 ^ 10 = (a / 64 * 2 ^ 16) ||| (a % 64 * 2 ^ 10) := by
    rw [hor _ _ (by omega) (by omega)]; omega
  have hhi : (a / 64 * 2 ^ 16) ||| 0x10000 = if a / 64 % 2 = 0 then a / 64 * 2 ^ 16 + 0x10000 else a / 64 * 2 ^ 16 := by
    have : ∀ k : Fin 16, ((k.val * 2 ^ 16) ||| 0x10000) =
        if k.val % 2 = 0 then k.val * 2 ^ 16 + 0x10000 else k.val * 2 ^ 16 := by decide
    exact this ⟨a / 64, by omega⟩
  have key : a * 2 ^ 10 ||| (b + 0x10000) = ((a / 64 * 2 ^ 16) ||| 0x10000) ||| (a % 64 * 2 ^ 10 + b) := by
    rw [hb', ha', Nat.or_assoc, ← Nat.or_assoc (a % 64 * 2 ^ 10), Nat.or_comm (a % 64 * 2 ^ 10),
      Nat.or_assoc, ← Nat.or_assoc, hor10 (a % 64 * 2 ^ 10) b (by omega) (by omega)]
  rw [key, hhi]
  clear key hb' ha' hhi e1 e2 hor10 hsplit
  split
  · rw [hor _ _ (by omega) (by omega)]; omega
  · rw [hor _ _ (by omega) (by omega)]; omega

theorem simpleEscape_table {e o : UInt8} (h : (e, o) ∈ escTable) : simpleEscape e = some o := by
  unfold escTable at h
  simp only [List.mem_cons, Prod.mk.injEq, List.not_mem_nil, or_false] at h
  rcases h with ⟨rfl, rfl⟩ | ⟨rfl, rfl⟩ | ⟨rfl, rfl⟩ | ⟨rfl, rfl⟩ | ⟨rfl, rfl⟩ | ⟨rfl, rfl⟩ | ⟨rfl, rfl⟩ | ⟨rfl, rfl⟩ <;> decide

theorem pair4_eq {h1 h2 h3 h4 g1 g2 g3 g4 : UInt8}
    (a1 : IsHex h1) (a2 : IsHex h2) (a3 : IsHex h3) (a4 : IsHex h4)
    (b1 : IsHex g1) (b2 : IsHex g2) (b3 : IsHex g3) (b4 : IsHex g4)
    (l1 : 0xD800 ≤ codeUnit h1 h2 h3 h4) (l2 : codeUnit h1 h2 h3 h4 ≤ 0xDBFF)
    (l3 : 0xDC00 ≤ codeUnit g1 g2 g3 g4) (l4 : codeUnit g1 g2 g3 g4 ≤ 0xDFFF) (cp : Nat)
    (hcp : cp = 0x10000 + (codeUnit h1 h2 h3 h4 - 0xD800) * 0x400 + (codeUnit g1 g2 g3 g4 - 0xDC00)) :
    pair4 (hex4 [h1, h2, h3, h4]) [g1, g2, g3, g4] =
      if cp / 0x10000 % 2 = 1 then cp else charFromU32 (cp - 0x10000) := by
  unfold pair4
  rw [fromStrRadix16_hex b1 b2 b3 b4, hex4_eq a1 a2 a3 a4]
  simp only
  obtain ⟨a, ha⟩ : ∃ a, codeUnit h1 h2 h3 h4 = 0xD800 + a := ⟨codeUnit h1 h2 h3 h4 - 0xD800, by omega⟩
  obtain ⟨b, hb⟩ : ∃ b, codeUnit g1 g2 g3 g4 = 0xDC00 + b := ⟨codeUnit g1 g2 g3 g4 - 0xDC00, by omega⟩
  rw [ha, hb, Nat.add_sub_cancel_left, Nat.add_sub_cancel_left] at hcp
  rw [ha, hb]
  rw [ha] at l2
  rw [hb] at l4
  rw [utf16Decode_or (by omega) (by omega)]
  by_cases h : a / 64 % 2 = 0
  · rw [if_pos h, if_pos (by omega), charFromU32_scalar (by unfold Scalar; omega)]; omega
  · rw [if_neg h, if_neg (by omega), show cp - 0x10000 = a * 0x400 + b by omega]

theorem decodes_odd {b t : Bytes} (h : Decodes OddPlane b t) : unesc b = t := by
  induction h with
  | nil => rfl
  | plain h1 h2 h3 _ ih => rw [unesc_plain (by grind) h3, ih]
  | esc h _ ih => rw [unesc_esc (simpleEscape_table h), ih]
  | bmp a1 a2 a3 a4 hs _ ih =>
    have hlt := codeUnit_lt a1 a2 a3 a4
    rw [unesc_bmp, hex4_eq a1 a2 a3 a4, charFromU32_scalar, encodeUtf8_eq, ih]
    · unfold Scalar; omega
    · unfold Scalar; omega
    · rw [hex4_eq a1 a2 a3 a4]; unfold utf16IsSurrogate; simp; omega
  | @pair h1 h2 h3 h4 g1 g2 g3 g4 cp r t a1 a2 a3 a4 b1 b2 b3 b4 l1 l2 l3 l4 hcp hp _ ih =>
    rw [unesc_pair, pair4_eq a1 a2 a3 a4 b1 b2 b3 b4 l1 l2 l3 l4 cp hcp, if_pos (show cp / 0x10000 % 2 = 1 from hp), encodeUtf8_eq, ih]
    · unfold Scalar; omega
    · rw [hex4_eq a1 a2 a3 a4]; unfold utf16IsSurrogate; simp; omega

theorem Spec.Decodes.strBody {P : Nat → Prop} {b t : Bytes} (h : Decodes P b t) : StrBody b := by
  induction h with
  | nil => exact .nil
  | plain h1 h2 h3 _ ih => exact .plain h1 h2 h3 ih
  | esc h _ ih =>
    refine .esc ?_ ih
    unfold escTable at h
    simp only [List.mem_cons, Prod.mk.injEq, List.not_mem_nil, or_false] at h
    rcases h with ⟨rfl, rfl⟩ | ⟨rfl, rfl⟩ | ⟨rfl, rfl⟩ | ⟨rfl, rfl⟩ | ⟨rfl, rfl⟩ | ⟨rfl, rfl⟩ | ⟨rfl, rfl⟩ | ⟨rfl, rfl⟩ <;> decide
  | bmp a1 a2 a3 a4 _ _ ih => exact .uni a1 a2 a3 a4 ih
  | pair a1 a2 a3 a4 b1 b2 b3 b4 _ _ _ _ _ _ _ ih => exact .uni a1 a2 a3 a4 (.uni b1 b2 b3 b4 ih)

/-! ### UTF-8 of unescaped strings -/

theorem Spec.IsUtf8.nil : IsUtf8 [] := ⟨[], rfl⟩
theorem Spec.IsUtf8.append {a b : Bytes} (ha : IsUtf8 a) (hb : IsUtf8 b) : IsUtf8 (a ++ b) := by
  obtain ⟨x, rfl⟩ := ha; obtain ⟨y, rfl⟩ := hb; exact ⟨x ++ y, by simp⟩
theorem Spec.IsUtf8.char (c : Char) : IsUtf8 (String.utf8EncodeChar c) := ⟨[c], by simp⟩

/-- Either one ASCII byte, or only bytes above the ASCII range. -/
theorem utf8EncodeChar_cases (c : Char) :
    (∃ x : UInt8, x < 0x80 ∧ String.utf8EncodeChar c = [x]) ∨
    (String.utf8EncodeChar c ≠ [] ∧ ∀ x ∈ String.utf8EncodeChar c, 0x80 ≤ x) := by
  have big : ∀ n : Nat, 128 ≤ n → n < 256 → (0x80 : UInt8) ≤ UInt8.ofNat n := by
    intro n h1 h2
    rw [UInt8.le_iff_toNat_le, UInt8.toNat_ofNat']
    simp; omega
  unfold String.utf8EncodeChar
  simp only
  split
  · rename_i h
    left
    refine ⟨_, ?_, rfl⟩
    rw [UInt8.lt_iff_toNat_lt, UInt8.toNat_ofNat']
    show _ % 256 < 128
    omega
  · right
    split
    · refine ⟨by simp, ?_⟩
      intro x hx
      simp only [List.mem_cons, List.not_mem_nil, or_false] at hx
      rcases hx with rfl | rfl <;> apply big <;> omega
    · split
      · refine ⟨by simp, ?_⟩
        intro x hx
        simp only [List.mem_cons, List.not_mem_nil, or_false] at hx
        rcases hx with rfl | rfl | rfl <;> apply big <;> omega
      · refine ⟨by simp, ?_⟩
        intro x hx
        simp only [List.mem_cons, List.not_mem_nil, or_false] at hx
        rcases hx with rfl | rfl | rfl | rfl <;> apply big <;> omega

theorem Spec.IsUtf8.ascii {x : UInt8} (h : x < 0x80) : IsUtf8 [x] := by
  refine ⟨[Char.ofNat x.toNat], ?_⟩
  have hx : x.toNat < 128 := by rw [UInt8.lt_iff_toNat_lt] at h; simpa using h
  have := encodeUtf8_eq (cp := x.toNat) (.inl (by omega))
  unfold utf8 encodeUtf8 at this
  rw [if_pos hx] at this
  simp [← this]

theorem Spec.IsUtf8.tail_ascii {x : UInt8} {r : Bytes} (h : IsUtf8 (x :: r)) (hx : x < 0x80) : IsUtf8 r := by
  obtain ⟨cs, h⟩ := h
  cases cs with
  | nil => simp at h
  | cons c cs =>
    rw [List.flatMap_cons] at h
    rcases utf8EncodeChar_cases c with ⟨y, hy, he⟩ | ⟨h0, hall⟩
    · rw [he] at h; simp at h; exact ⟨cs, h.2⟩
    · exfalso
      cases hc : String.utf8EncodeChar c with
      | nil => exact h0 hc
      | cons y ys =>
        rw [hc] at h hall
        simp at h
        have := hall y (by simp)
        rw [h.1] at hx
        grind

theorem Spec.IsUtf8.split_high {x : UInt8} {r : Bytes} (h : IsUtf8 (x :: r)) (hx : ¬ x < 0x80) :
    ∃ p q, x :: r = p ++ q ∧ p ≠ [] ∧ (∀ y ∈ p, 0x80 ≤ y) ∧ IsUtf8 p ∧ IsUtf8 q := by
  obtain ⟨cs, h⟩ := h
  cases cs with
  | nil => simp at h
  | cons c cs =>
    rw [List.flatMap_cons] at h
    rcases utf8EncodeChar_cases c with ⟨y, hy, he⟩ | ⟨h0, hall⟩
    · rw [he] at h; simp at h; rw [h.1] at hx; exact absurd hy hx
    · exact ⟨_, _, h, h0, hall, .char c, ⟨cs, rfl⟩⟩

theorem unesc_high {p q : Bytes} (h : ∀ y ∈ p, 0x80 ≤ y) : unesc (p ++ q) = p ++ unesc q := by
  induction p with
  | nil => rfl
  | cons y p ih =>
    have := h y (by simp)
    rw [List.cons_append, unesc_plain (by grind) (by grind), ih (fun x hx => h x (by simp [hx]))]
    rfl

theorem Spec.StrBody.drop_high {p q : Bytes} (h : ∀ y ∈ p, 0x80 ≤ y) (hb : StrBody (p ++ q)) : StrBody q := by
  induction p with
  | nil => exact hb
  | cons y p ih =>
    have hy := h y (by simp)
    rw [List.cons_append] at hb
    generalize hs : p ++ q = s at hb ih
    cases hb with
    | plain _ _ _ hb => exact ih (fun x hx => h x (by simp [hx])) hb
    | esc _ _ => exact absurd hy (by decide)
    | uni _ _ _ _ _ => exact absurd hy (by decide)

theorem Spec.IsUtf8.encode (r : Nat) : IsUtf8 (encodeUtf8 (charFromU32 r)) := by
  rw [encodeUtf8_eq (scalar_charFromU32 r)]
  exact .char _

theorem Spec.IsUtf8.encode_pair (r : Nat) (h : Bytes) : IsUtf8 (encodeUtf8 (pair4 r h)) := by
  unfold pair4; split <;> exact .encode _

theorem isHex_ascii {c : UInt8} (h : IsHex c) : c < 0x80 := by unfold IsHex at h; grind

theorem isSimpleEsc_ascii {c : UInt8} (h : IsSimpleEsc c) : c < 0x80 := by
  rw [isSimpleEsc_iff] at h; grind

theorem simpleEscape_of_isSimpleEsc {e : UInt8} (h : IsSimpleEsc e) :
    ∃ o, simpleEscape e = some o ∧ o < 0x80 := by
  rw [isSimpleEsc_iff] at h
  rcases h with rfl | rfl | rfl | rfl | rfl | rfl | rfl | rfl <;> exact ⟨_, rfl, by decide⟩

theorem unesc_utf8 : ∀ (n : Nat) (b : Bytes), b.length ≤ n → StrBody b → IsUtf8 b → IsUtf8 (unesc b)
  | _, [], _, _, _ => .nil
  | 0, _ :: _, h, _, _ => by simp at h
  | n + 1, x :: r, hl, hb, hu => by
    by_cases hx : x < 0x80
    · have hr := hu.tail_ascii hx
      cases hb with
      | plain h1 h2 h3 hb =>
        rw [unesc_plain (by grind) h3]
        exact (IsUtf8.ascii hx).append (unesc_utf8 n r (by simpa using hl) hb hr)
      | @esc e r' he hb =>
        obtain ⟨o, ho, ho2⟩ := simpleEscape_of_isSimpleEsc he
        rw [unesc_esc ho]
        exact (IsUtf8.ascii ho2).append (unesc_utf8 n r' (by simp at hl; omega) hb
          (hr.tail_ascii (isSimpleEsc_ascii he)))
      | @uni h1 h2 h3 h4 q a1 a2 a3 a4 hb =>
        have hq := ((((hr.tail_ascii (by decide)).tail_ascii (isHex_ascii a1)).tail_ascii
          (isHex_ascii a2)).tail_ascii (isHex_ascii a3)).tail_ascii (isHex_ascii a4)
        have ihq := unesc_utf8 n q (by simp at hl; omega) hb hq
        by_cases hs : utf16IsSurrogate (hex4 [h1, h2, h3, h4]) = true
        · rw [unesc.eq_def]
          simp only
          have e1 : simpleEscape 117 = none := by decide
          rw [if_neg (by decide), if_pos trivial, e1]
          simp only
          rw [if_pos trivial, if_pos hs]
          split
          · rename_i a b g1 g2 g3 g4 q'
            split
            · rename_i hab
              refine (IsUtf8.encode_pair _ _).append ?_
              obtain ⟨rfl, rfl⟩ := hab
              cases hb with
              | plain _ _ h3 _ => exact absurd rfl h3
              | esc he _ => exact absurd he (by decide)
              | uni b1 b2 b3 b4 hb =>
                have hq' := (((((hq.tail_ascii (by decide)).tail_ascii (by decide)).tail_ascii
                  (isHex_ascii b1)).tail_ascii (isHex_ascii b2)).tail_ascii
                  (isHex_ascii b3)).tail_ascii (isHex_ascii b4)
                exact unesc_utf8 n q' (by simp at hl; omega) hb hq'
            · exact (IsUtf8.encode _).append ihq
          · exact (IsUtf8.encode _).append ihq
        · rw [unesc_bmp (by simpa using hs)]
          exact (IsUtf8.encode _).append ihq
    · obtain ⟨p, q, h1, h2, h3, h4, h5⟩ := hu.split_high hx
      rw [h1] at hb ⊢
      rw [unesc_high h3]
      have hlen := congrArg List.length h1
      have : 0 < p.length := List.length_pos_iff.2 h2
      exact h4.append (unesc_utf8 n q (by simp at hlen hl; omega) (hb.drop_high h3) h5)

/-- A UTF-8 text can be cut before an ASCII byte. -/
theorem Spec.IsUtf8.cut : ∀ (n : Nat) (a : Bytes) {x : UInt8} {r : Bytes}, a.length ≤ n → x < 0x80 →
    IsUtf8 (a ++ x :: r) → IsUtf8 a ∧ IsUtf8 (x :: r)
  | _, [], _, _, _, _, h => ⟨.nil, h⟩
  | 0, _ :: _, _, _, hl, _, _ => by simp at hl
  | n + 1, y :: a, x, r, hl, hx, h => by
    by_cases hy : y < 0x80
    · obtain ⟨h1, h2⟩ := Spec.IsUtf8.cut n a (by simpa using hl) hx (h.tail_ascii hy)
      exact ⟨(IsUtf8.ascii hy).append h1, h2⟩
    · obtain ⟨p, q, e, h0, h3, h4, h5⟩ := Spec.IsUtf8.split_high (x := y) (r := a ++ x :: r) h hy
      rw [← List.cons_append] at e
      rcases List.append_eq_append_iff.1 e with ⟨a', e1, e2⟩ | ⟨c', e1, e2⟩
      · cases a' with
        | nil =>
          rw [List.append_nil] at e1
          rw [List.nil_append] at e2
          exact ⟨e1 ▸ h4, e2 ▸ h5⟩
        | cons z a' =>
          have : x = z := by simpa using congrArg List.head? e2
          have hz := h3 z (by rw [e1]; simp)
          subst this
          exact absurd hx (by grind)
      · rw [e2] at h5
        have hlen := congrArg List.length e1
        have : 0 < p.length := List.length_pos_iff.2 h0
        obtain ⟨h6, h7⟩ := Spec.IsUtf8.cut n c' (by simp at hlen hl; omega) hx h5
        exact ⟨e1 ▸ h4.append h6, h7⟩

theorem Spec.IsUtf8.left {a r : Bytes} {x : UInt8} (h : IsUtf8 (a ++ x :: r)) (hx : x < 0x80) : IsUtf8 a :=
  (Spec.IsUtf8.cut _ a (Nat.le_refl _) hx h).1
theorem Spec.IsUtf8.right {a r : Bytes} {x : UInt8} (h : IsUtf8 (a ++ x :: r)) (hx : x < 0x80) : IsUtf8 (x :: r) :=
  (Spec.IsUtf8.cut _ a (Nat.le_refl _) hx h).2

theorem isUtf8_iff (b : Bytes) : IsUtf8 b ↔ (List.toByteArray b).IsValidUTF8 := by
  constructor
  · rintro ⟨cs, rfl⟩; exact ⟨cs, rfl⟩
  · rintro ⟨cs, h⟩
    refine ⟨cs, ?_⟩
    have := congrArg (fun x => x.data.toList) h
    simpa [List.utf8Encode] using this

instance (b : Bytes) : Decidable (IsUtf8 b) := decidable_of_iff _ (isUtf8_iff b).symm

end Gjson
