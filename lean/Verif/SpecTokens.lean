import Verif.SpecPath
/-
Texts that are made of whole JSON tokens.
-/
namespace Gjson.Spec

open Gjson (Bytes)

/-- A text of whole tokens and whitespace, in any order, where all strings, numbers and
literal names have `Q`. The first flag says whether a value may start at its beginning, the
second whether one may start after it: after a number only whitespace, a separator or a
closing bracket can follow (`12` is not `1` and `2`). Brackets need not match. -/
inductive Lexed (Q : Bytes → Prop) : Bool → Bytes → Bool → Prop
  | nil {a : Bool} : Lexed Q a [] a
  | ws {a e : Bool} {c : UInt8} {r : Bytes} : IsWs c → Lexed Q a r e → Lexed Q a (c :: r) e
  | sep {a e : Bool} {c : UInt8} {r : Bytes} : c ∈ b!",:]}" → Lexed Q true r e → Lexed Q a (c :: r) e
  | opn {e : Bool} {c : UInt8} {r : Bytes} : c ∈ b!"[{" → Lexed Q true r e → Lexed Q true (c :: r) e
  | num {e : Bool} {t r : Bytes} : NumLit t → Q t → Lexed Q false r e → Lexed Q true (t ++ r) e
  | word {e : Bool} {t r : Bytes} : t ∈ [b!"true", b!"false", b!"null"] → Q t → Lexed Q true r e → Lexed Q true (t ++ r) e
  | str {e : Bool} {t r : Bytes} : StrLit t → Q t → Lexed Q true r e → Lexed Q true (t ++ r) e

/-- A text of whole tokens. -/
def InTokens (Q : Bytes → Prop) (t : Bytes) : Prop := ∃ e, Lexed Q true t e

/-- A string, a number or a literal name. -/
def IsToken (t : Bytes) : Prop := StrLit t ∨ NumLit t ∨ t ∈ [b!"true", b!"false", b!"null"]

/-- `t` is one of the strings, numbers and literal names of the text: the text can be read
as tokens of which `t` is one. -/
def TokenOf (text t : Bytes) : Prop :=
  IsToken t ∧ ∃ pre post a e, text = pre ++ (t ++ post) ∧ Lexed (fun _ => True) true pre true ∧
    Lexed (fun _ => True) a post e ∧ (NumLit t → a = false)

/-- What may stand in a result: a string, number or literal name of the text, a key that
was cut from the path (or `_`), or a count. -/
def Written (text path t : Bytes) : Prop :=
  TokenOf text t ∨ (∃ k, (k <:+: path ∨ k = b!"_") ∧ t = quoted k) ∨ ∃ n, t = numeral n

end Gjson.Spec
