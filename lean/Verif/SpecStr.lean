import Verif.Spec
/-
Specification vocabulary for string literals whose `\u` escapes are not all proper: the
text that `str()` shows for any string literal.
-/
namespace Gjson.Spec

/-- A UTF-16 surrogate. -/
def IsSurrogate (u : Nat) : Prop := 0xD800 ≤ u ∧ u ≤ 0xDFFF

/-- The code units are a high and a low surrogate. -/
def IsPair (u v : Nat) : Prop := (0xD800 ≤ u ∧ u ≤ 0xDBFF) ∧ 0xDC00 ≤ v ∧ v ≤ 0xDFFF

/-- The code point a pair stands for (Unicode 3.9, D91). -/
def pairPoint (u v : Nat) : Nat := 0x10000 + (u - 0xD800) * 0x400 + (v - 0xDC00)

/-- The text shown for the text `b` between the quotes of a string literal. As RFC 8259 says,
with these rules for surrogates: a pair for a code point in an even plane (2, 4, …, 16)
is shown as the code point one plane lower; a surrogate that does not form a pair with the
`\u` escape after it is shown, together with that escape, as one U+FFFD; a surrogate with
no `\u` escape after it is shown as U+FFFD. -/
inductive Shown : Bytes → Bytes → Prop
  | nil : Shown [] []
  | plain {c : UInt8} {r t : Bytes} : 0x20 ≤ c → c ≠ c! '"' → c ≠ c! '\\' → Shown r t → Shown (c :: r) (c :: t)
  | esc {e o : UInt8} {r t : Bytes} : (e, o) ∈ escTable → Shown r t → Shown (c! '\\' :: e :: r) (o :: t)
  | bmp {h1 h2 h3 h4 : UInt8} {r t : Bytes} : IsHex h1 → IsHex h2 → IsHex h3 → IsHex h4 →
      ¬ IsSurrogate (codeUnit h1 h2 h3 h4) → Shown r t →
      Shown (c! '\\' :: c! 'u' :: h1 :: h2 :: h3 :: h4 :: r) (utf8 (codeUnit h1 h2 h3 h4) ++ t)
  | pair {h1 h2 h3 h4 g1 g2 g3 g4 : UInt8} {cp : Nat} {r t : Bytes} :
      IsHex h1 → IsHex h2 → IsHex h3 → IsHex h4 → IsHex g1 → IsHex g2 → IsHex g3 → IsHex g4 →
      IsPair (codeUnit h1 h2 h3 h4) (codeUnit g1 g2 g3 g4) →
      cp = pairPoint (codeUnit h1 h2 h3 h4) (codeUnit g1 g2 g3 g4) → Shown r t →
      Shown (c! '\\' :: c! 'u' :: h1 :: h2 :: h3 :: h4 :: c! '\\' :: c! 'u' :: g1 :: g2 :: g3 :: g4 :: r)
        (utf8 (if cp / 0x10000 % 2 = 1 then cp else cp - 0x10000) ++ t)
  | broken {h1 h2 h3 h4 g1 g2 g3 g4 : UInt8} {r t : Bytes} :
      IsHex h1 → IsHex h2 → IsHex h3 → IsHex h4 → IsHex g1 → IsHex g2 → IsHex g3 → IsHex g4 →
      IsSurrogate (codeUnit h1 h2 h3 h4) → ¬ IsPair (codeUnit h1 h2 h3 h4) (codeUnit g1 g2 g3 g4) → Shown r t →
      Shown (c! '\\' :: c! 'u' :: h1 :: h2 :: h3 :: h4 :: c! '\\' :: c! 'u' :: g1 :: g2 :: g3 :: g4 :: r) (utf8 0xFFFD ++ t)
  | lone {h1 h2 h3 h4 : UInt8} {r t : Bytes} : IsHex h1 → IsHex h2 → IsHex h3 → IsHex h4 →
      IsSurrogate (codeUnit h1 h2 h3 h4) → ¬ b!"\\u" <+: r → Shown r t →
      Shown (c! '\\' :: c! 'u' :: h1 :: h2 :: h3 :: h4 :: r) (utf8 0xFFFD ++ t)

/-- Bytes, characters and escapes that are read one after the other; four bytes belong to a
`\u` escape, whatever they are. -/
inductive Read : Bytes → Prop
  | nil : Read []
  | plain {c : UInt8} {r : Bytes} : 0x20 ≤ c → c ≠ c! '\\' → Read r → Read (c :: r)
  | esc {e : UInt8} {r : Bytes} : IsSimpleEsc e → Read r → Read (c! '\\' :: e :: r)
  | uni {h1 h2 h3 h4 : UInt8} {r : Bytes} : Read r → Read (c! '\\' :: c! 'u' :: h1 :: h2 :: h3 :: h4 :: r)

/-- The four bytes that belong to a `\u` escape end inside a multi-byte character: a
continuation byte follows them. -/
def CutsChar (b : Bytes) : Prop :=
  ∃ a h1 h2 h3 h4 c q, Read a ∧ b = a ++ c! '\\' :: c! 'u' :: h1 :: h2 :: h3 :: h4 :: c :: q ∧ 0x80 ≤ c ∧ c < 0xC0

end Gjson.Spec
