import Verif.Model.Scan
import Verif.SpecWords
/-
Specification vocabulary, independent of the model: the JSON grammar of
RFC 8259, arrays and objects with their element texts, string decoding,
wildcards, UTF-8. Nothing in this file refers to the modelled code, apart from
the public enumeration `Kind`.
-/
namespace Gjson.Spec

open Gjson (Bytes Kind)

/-- RFC 8259 `ws` characters. -/
def IsWs (c : UInt8) : Prop := c = 0x20 ∨ c = 0x09 ∨ c = 0x0A ∨ c = 0x0D
instance (c : UInt8) : Decidable (IsWs c) := by unfold IsWs; infer_instance

/-- A string of whitespace. -/
def Ws (w : Bytes) : Prop := ∀ c ∈ w, IsWs c
instance (w : Bytes) : Decidable (Ws w) := by unfold Ws; infer_instance

/-- Decimal digit. -/
def IsDigit (c : UInt8) : Prop := 0x30 ≤ c ∧ c ≤ 0x39
instance (c : UInt8) : Decidable (IsDigit c) := by unfold IsDigit; infer_instance

/-- Hexadecimal digit. -/
def IsHex (c : UInt8) : Prop :=
  (0x30 ≤ c ∧ c ≤ 0x39) ∨ (0x61 ≤ c ∧ c ≤ 0x66) ∨ (0x41 ≤ c ∧ c ≤ 0x46)
instance (c : UInt8) : Decidable (IsHex c) := by unfold IsHex; infer_instance

/-- The characters that may follow a backslash, other than `u`. -/
def IsSimpleEsc (c : UInt8) : Prop := c ∈ b!"\"\\/bfnrt"
instance (c : UInt8) : Decidable (IsSimpleEsc c) := by unfold IsSimpleEsc; infer_instance

/-- RFC 8259 section 7: the text between the quotes of a string literal. Any
byte `>= 0x20` other than `"` and `\` counts as unescaped content. -/
inductive StrBody : Bytes → Prop
  | nil : StrBody []
  | plain {c : UInt8} {r : Bytes} : 0x20 ≤ c → c ≠ c! '"' → c ≠ c! '\\' → StrBody r → StrBody (c :: r)
  | esc {e : UInt8} {r : Bytes} : IsSimpleEsc e → StrBody r → StrBody (c! '\\' :: e :: r)
  | uni {h1 h2 h3 h4 : UInt8} {r : Bytes} : IsHex h1 → IsHex h2 → IsHex h3 → IsHex h4 → StrBody r →
      StrBody (c! '\\' :: c! 'u' :: h1 :: h2 :: h3 :: h4 :: r)

/-- A string literal with its quotes. -/
def StrLit (t : Bytes) : Prop := ∃ b, StrBody b ∧ t = c! '"' :: (b ++ [c! '"'])

/-- RFC 8259 section 6: `int = zero / ( digit1-9 *DIGIT )`. -/
def IntPart (t : Bytes) : Prop :=
  t = [c! '0'] ∨ ∃ d ds, t = d :: ds ∧ IsDigit d ∧ d ≠ c! '0' ∧ ∀ c ∈ ds, IsDigit c

/-- `[ frac ]`, `frac = decimal-point 1*DIGIT`. -/
def FracPart (t : Bytes) : Prop :=
  t = [] ∨ ∃ ds, t = c! '.' :: ds ∧ ds ≠ [] ∧ ∀ c ∈ ds, IsDigit c

/-- `[ exp ]`, `exp = e [ minus / plus ] 1*DIGIT`. -/
def ExpPart (t : Bytes) : Prop :=
  t = [] ∨ ∃ e sg ds, t = e :: (sg ++ ds) ∧ (e = c! 'e' ∨ e = c! 'E') ∧
    (sg = [] ∨ sg = [c! '+'] ∨ sg = [c! '-']) ∧ ds ≠ [] ∧ ∀ c ∈ ds, IsDigit c

/-- RFC 8259 section 6: `number = [ minus ] int [ frac ] [ exp ]`. -/
def NumLit (t : Bytes) : Prop :=
  ∃ sg ip fp ep, t = sg ++ (ip ++ (fp ++ ep)) ∧ (sg = [] ∨ sg = [c! '-']) ∧
    IntPart ip ∧ FracPart fp ∧ ExpPart ep

/-- An array element with the whitespace around it. -/
structure Elem where
  pre : Bytes
  val : Bytes
  post : Bytes

/-- The text of one element with its whitespace. -/
def Elem.text (e : Elem) : Bytes := e.pre ++ (e.val ++ e.post)

/-- Elements separated by commas. -/
def elemsText : List Elem → Bytes
  | [] => []
  | [e] => e.text
  | e :: e' :: r => e.text ++ c! ',' :: elemsText (e' :: r)

/-- An object member with the whitespace around its parts. -/
structure Member where
  pre : Bytes
  key : Bytes
  mid1 : Bytes
  mid2 : Bytes
  val : Bytes
  post : Bytes

/-- The text of one member with its whitespace. -/
def Member.text (m : Member) : Bytes :=
  m.pre ++ (m.key ++ (m.mid1 ++ c! ':' :: (m.mid2 ++ (m.val ++ m.post))))

/-- Members separated by commas. -/
def membersText : List Member → Bytes
  | [] => []
  | [m] => m.text
  | m :: m' :: r => m.text ++ c! ',' :: membersText (m' :: r)

/-- Whitespace and key of a member are well formed. -/
def Member.Wf (m : Member) : Prop :=
  Ws m.pre ∧ StrLit m.key ∧ Ws m.mid1 ∧ Ws m.mid2 ∧ Ws m.post

/-- Whitespace of an element is well formed. -/
def Elem.Wf (e : Elem) : Prop := Ws e.pre ∧ Ws e.post

/-- RFC 8259: a JSON value, without surrounding whitespace. -/
inductive IsValue : Bytes → Prop
  | null : IsValue b!"null"
  | true : IsValue b!"true"
  | false : IsValue b!"false"
  | str {t : Bytes} : StrLit t → IsValue t
  | num {t : Bytes} : NumLit t → IsValue t
  | arrEmpty {w : Bytes} : Ws w → IsValue (c! '[' :: (w ++ [c! ']']))
  | arr {es : List Elem} : es ≠ [] → (∀ e ∈ es, e.Wf) → (∀ e ∈ es, IsValue e.val) →
      IsValue (c! '[' :: (elemsText es ++ [c! ']']))
  | objEmpty {w : Bytes} : Ws w → IsValue (c! '{' :: (w ++ [c! '}']))
  | obj {ms : List Member} : ms ≠ [] → (∀ m ∈ ms, m.Wf) → (∀ m ∈ ms, IsValue m.val) →
      IsValue (c! '{' :: (membersText ms ++ [c! '}']))

/-- RFC 8259: `JSON-text = ws value ws`. -/
def JsonText (t : Bytes) : Prop := ∃ w1 v w2, t = w1 ++ (v ++ w2) ∧ Ws w1 ∧ Ws w2 ∧ IsValue v

/-- `t` is a JSON array whose element texts are `vs`, in order. -/
def IsArray (t : Bytes) (vs : List Bytes) : Prop :=
  (∃ w, Ws w ∧ t = c! '[' :: (w ++ [c! ']']) ∧ vs = []) ∨
  (∃ es : List Elem, es ≠ [] ∧ (∀ e ∈ es, e.Wf) ∧ (∀ e ∈ es, IsValue e.val) ∧
    t = c! '[' :: (elemsText es ++ [c! ']']) ∧ vs = es.map Elem.val)

/-- `t` is a JSON object whose (key literal, value text) pairs are `kvs`, in order. -/
def IsObject (t : Bytes) (kvs : List (Bytes × Bytes)) : Prop :=
  (∃ w, Ws w ∧ t = c! '{' :: (w ++ [c! '}']) ∧ kvs = []) ∨
  (∃ ms : List Member, ms ≠ [] ∧ (∀ m ∈ ms, m.Wf) ∧ (∀ m ∈ ms, IsValue m.val) ∧
    t = c! '{' :: (membersText ms ++ [c! '}']) ∧ kvs = ms.map fun m => (m.key, m.val))

/-- `t` with whitespace `w1` before and `w2` after. -/
def Padded (t doc : Bytes) : Prop := ∃ w1 w2, Ws w1 ∧ Ws w2 ∧ doc = w1 ++ (t ++ w2)

/-- The kind of a JSON value, by its first byte. -/
def kindOf (v : Bytes) : Kind :=
  match v with
  | [] => .null
  | c :: _ =>
    if c = c! '"' then .string
    else if c = c! '{' then .object
    else if c = c! '[' then .array
    else if c = c! 't' then .true
    else if c = c! 'f' then .false
    else if c = c! 'n' then .null
    else .number

/-- UTF-8 encoding of a code point (Lean's own `String.utf8EncodeChar`). -/
def utf8 (cp : Nat) : Bytes := String.utf8EncodeChar (Char.ofNat cp)

/-- The bytes are the UTF-8 encoding of some sequence of characters. -/
def IsUtf8 (b : Bytes) : Prop := ∃ cs : List Char, b = cs.flatMap String.utf8EncodeChar

/-- Value of a hexadecimal digit. -/
def hexDigit (c : UInt8) : Nat :=
  if c ≤ 0x39 then c.toNat - 0x30 else if c ≤ 0x46 then c.toNat - 0x41 + 10 else c.toNat - 0x61 + 10

/-- The UTF-16 code unit written with four hexadecimal digits. -/
def codeUnit (h1 h2 h3 h4 : UInt8) : Nat :=
  ((hexDigit h1 * 16 + hexDigit h2) * 16 + hexDigit h3) * 16 + hexDigit h4

/-- RFC 8259 section 7: what the two-character escapes stand for. -/
def escTable : List (UInt8 × UInt8) :=
  [(c! '"', 0x22), (c! '\\', 0x5C), (c! '/', 0x2F), (c! 'b', 0x08), (c! 'f', 0x0C),
   (c! 'n', 0x0A), (c! 'r', 0x0D), (c! 't', 0x09)]

/-- RFC 8259 section 7: the text `b` between the quotes of a string literal
denotes the UTF-8 string `t`. Surrogate pairs are only allowed for supplementary
code points satisfying `P`; `P := fun _ => True` is the RFC. A lone surrogate
denotes nothing. -/
inductive Decodes (P : Nat → Prop) : Bytes → Bytes → Prop
  | nil : Decodes P [] []
  | plain {c : UInt8} {r t : Bytes} : 0x20 ≤ c → c ≠ c! '"' → c ≠ c! '\\' → Decodes P r t →
      Decodes P (c :: r) (c :: t)
  | esc {e o : UInt8} {r t : Bytes} : (e, o) ∈ escTable → Decodes P r t →
      Decodes P (c! '\\' :: e :: r) (o :: t)
  | bmp {h1 h2 h3 h4 : UInt8} {r t : Bytes} : IsHex h1 → IsHex h2 → IsHex h3 → IsHex h4 →
      ¬ (0xD800 ≤ codeUnit h1 h2 h3 h4 ∧ codeUnit h1 h2 h3 h4 ≤ 0xDFFF) → Decodes P r t →
      Decodes P (c! '\\' :: c! 'u' :: h1 :: h2 :: h3 :: h4 :: r) (utf8 (codeUnit h1 h2 h3 h4) ++ t)
  | pair {h1 h2 h3 h4 g1 g2 g3 g4 : UInt8} {cp : Nat} {r t : Bytes} :
      IsHex h1 → IsHex h2 → IsHex h3 → IsHex h4 → IsHex g1 → IsHex g2 → IsHex g3 → IsHex g4 →
      0xD800 ≤ codeUnit h1 h2 h3 h4 → codeUnit h1 h2 h3 h4 ≤ 0xDBFF →
      0xDC00 ≤ codeUnit g1 g2 g3 g4 → codeUnit g1 g2 g3 g4 ≤ 0xDFFF →
      cp = 0x10000 + (codeUnit h1 h2 h3 h4 - 0xD800) * 0x400 + (codeUnit g1 g2 g3 g4 - 0xDC00) →
      P cp → Decodes P r t →
      Decodes P (c! '\\' :: c! 'u' :: h1 :: h2 :: h3 :: h4 :: c! '\\' :: c! 'u' :: g1 :: g2 :: g3 :: g4 :: r)
        (utf8 cp ++ t)

/-- The number written by a string of decimal digits. -/
def decVal (ds : Bytes) : Nat := ds.foldl (fun a c => a * 10 + (c.toNat - 0x30)) 0

/-- The decimal numeral of a natural number (Lean's `Nat.toDigits`). -/
def numeral (n : Nat) : Bytes := (Nat.toDigits 10 n).map fun c => UInt8.ofNat c.toNat

/-- The decimal numeral of an integer. -/
def intNumeral (n : Int) : Bytes := if n < 0 then c! '-' :: numeral n.natAbs else numeral n.natAbs

/-- The value in `[lo, hi]` nearest to `x`. -/
def clamp (lo hi x : Int) : Int := max lo (min hi x)

/-- Walk through a list with a state; the step says whether to go on. -/
def visit {σ α ε : Type} (f : σ → α → Except ε (σ × Bool)) : σ → List α → Except ε σ
  | s, [] => .ok s
  | s, a :: r =>
    match f s a with
    | .error e => .error e
    | .ok (s, more) => if more then visit f s r else .ok s

/-- Two lists have the same length and related entries at every position. -/
inductive Aligned {α β : Type} (R : α → β → Prop) : List α → List β → Prop
  | nil : Aligned R [] []
  | cons {a : α} {b : β} {as : List α} {bs : List β} : R a b → Aligned R as bs → Aligned R (a :: as) (b :: bs)

/-- Bytes with a meaning anywhere in a path component. -/
def pathSpecial : Bytes := b!".|*?\\"
/-- Bytes with a meaning at the start of a path component. -/
def pathStart : Bytes := b!"@#{["

/-- A key that can be written in a path as it is. -/
def PlainKey (k : Bytes) : Prop := (∀ c ∈ k, c ∉ pathSpecial) ∧ ∀ c ∈ k.head?, c ∉ pathStart
instance (k : Bytes) : Decidable (PlainKey k) := by unfold PlainKey; infer_instance

/-- Path components joined with dots. -/
def dotPath : List Bytes → Bytes
  | [] => []
  | [k] => k
  | k :: k' :: r => k ++ c! '.' :: dotPath (k' :: r)

/-- `k` is written as the array index `n`: decimal digits, as in `7`, but also
with a sign or leading zeros, as in `+7`, `007` and `-0`. -/
def IndexText (k : Bytes) (n : Nat) : Prop :=
  ∃ ds, ds ≠ [] ∧ (∀ c ∈ ds, IsDigit c) ∧ decVal ds = n ∧
    (k = ds ∨ k = c! '+' :: ds ∨ (k = c! '-' :: ds ∧ n = 0))

/-- The value text `t` leads to the value text `r` by following the components
one after the other: a key selects the first member with that key in an object
(`D kl k` says that the key literal `kl` denotes `k`), an index selects an
element of an array. -/
inductive Resolves (D : Bytes → Bytes → Prop) : Bytes → List Bytes → Bytes → Prop
  | here {v : Bytes} : Resolves D v [] v
  | key {t kl k v r : Bytes} {ks : List Bytes} {before after : List (Bytes × Bytes)} :
      IsObject t (before ++ (kl, v) :: after) → (∀ m ∈ before, ∃ s, D m.1 s ∧ s ≠ k) → D kl k →
      Resolves D v ks r → Resolves D t (k :: ks) r
  | index {t k v r : Bytes} {ks vs : List Bytes} {n : Nat} :
      IsArray t vs → IndexText k n → n < 2 ^ 63 → vs[n]? = some v → Resolves D v ks r → Resolves D t (k :: ks) r

/-- Wildcard patterns. `*` stands for any sequence of bytes, `?` for any one byte,
a backslash followed by `c` for any `d` with `E c d`, any other byte for itself. -/
inductive MatchesE (E : UInt8 → UInt8 → Prop) : Bytes → Bytes → Prop
  | nil : MatchesE E [] []
  | star {p s : Bytes} (a : Bytes) : MatchesE E p s → MatchesE E (c! '*' :: p) (a ++ s)
  | any {d : UInt8} {p s : Bytes} : MatchesE E p s → MatchesE E (c! '?' :: p) (d :: s)
  | esc {c d : UInt8} {p s : Bytes} : E c d → MatchesE E p s → MatchesE E (c! '\\' :: c :: p) (d :: s)
  | plain {c : UInt8} {p s : Bytes} : c ≠ c! '*' → c ≠ c! '?' → c ≠ c! '\\' → MatchesE E p s →
      MatchesE E (c :: p) (c :: s)

/-- Wildcard matching: a backslash makes the next byte stand for itself. -/
abbrev Matches : Bytes → Bytes → Prop := MatchesE Eq

/-- The pattern contains an escaped question mark. -/
def escapesQuestion : Bytes → Bool
  | [] => false
  | [_] => false
  | c :: d :: r => if c = c! '\\' then d = c! '?' || escapesQuestion r else escapesQuestion (d :: r)

/-- The pattern ends in a backslash that escapes nothing. -/
def loneBackslash : Bytes → Bool
  | [] => false
  | [c] => c = c! '\\'
  | c :: d :: r => if c = c! '\\' then loneBackslash r else loneBackslash (d :: r)

/-- A path component: no separator outside escapes, no meaning at the start (that
is, no modifier, no `#`, no multipath). Wildcards and escapes are allowed. -/
inductive CompText : Bytes → Prop
  | nil : CompText []
  | esc {c : UInt8} {r : Bytes} : CompText r → CompText (c! '\\' :: c :: r)
  | plain {c : UInt8} {r : Bytes} : c ∉ b!".|\\" → CompText r → CompText (c :: r)

/-- A path component that selects members or an element. -/
def Selector (k : Bytes) : Prop := CompText k ∧ (∀ c ∈ k.head?, c ∉ pathStart) ∧ k ≠ []

/-- `p` writes the key `k` as a path component: any byte may be escaped with a
backslash, bytes with a meaning must be. -/
inductive EscapedAs : Bytes → Bytes → Prop
  | nil : EscapedAs [] []
  | plain {c : UInt8} {k p : Bytes} : c ∉ pathSpecial → EscapedAs k p → EscapedAs (c :: k) (c :: p)
  | esc {c : UInt8} {k p : Bytes} : EscapedAs k p → EscapedAs (c :: k) (c! '\\' :: c :: p)

/-- Escape exactly the bytes with a meaning in paths. -/
def escapeKey (k : Bytes) : Bytes :=
  k.flatMap fun c => if c ∈ pathSpecial ∨ c ∈ pathStart then [c! '\\', c] else [c]

/-- The JSON string literal `kl` denotes `s` (see `Decodes` for `P`). -/
def KeyDenotes (P : Nat → Prop) (kl s : Bytes) : Prop := ∃ b, kl = c! '"' :: (b ++ [c! '"']) ∧ Decodes P b s

/-- Texts separated by commas. -/
def commaSep : List Bytes → Bytes
  | [] => []
  | [a] => a
  | a :: b :: r => a ++ c! ',' :: commaSep (b :: r)

/-- The array text with the given element texts, without whitespace. -/
def arrayText (vs : List Bytes) : Bytes := c! '[' :: (commaSep vs ++ [c! ']'])

/-- `q` occurs at most once in `s`. -/
def AtMostOnce (q s : Bytes) : Prop :=
  ∀ a b a' b', s = a ++ (q ++ b) → s = a' ++ (q ++ b') → a = a'

/-- A text with no closing quote: every `"` in it is escaped by a backslash. -/
inductive OpenStr : Bytes → Prop
  | nil : OpenStr []
  | lone : OpenStr [c! '\\']
  | esc {e : UInt8} {r : Bytes} : OpenStr r → OpenStr (c! '\\' :: e :: r)
  | plain {c : UInt8} {r : Bytes} : c ≠ c! '"' → c ≠ c! '\\' → OpenStr r → OpenStr (c :: r)

/-- After blanks and control bytes the text is a string that is never closed. -/
def StartsUnclosed (s : Bytes) : Prop :=
  ∃ w b, (∀ c ∈ w, c ≤ 0x20) ∧ s = w ++ c! '"' :: b ∧ OpenStr b

/-- The bytes with which the printer recognises a value. -/
def StartsToken (c : UInt8) : Prop := c = c! '"' ∨ IsDigit c ∨ c ∈ b!"-{[tfn"

/-- The first value that is recognised in the text, whatever stands before it, is a
string that is never closed. -/
def FirstUnclosed (s : Bytes) : Prop :=
  ∃ w b, (∀ c ∈ w, ¬ StartsToken c) ∧ s = w ++ c! '"' :: b ∧ OpenStr b

/-- JSON Lines: values with whitespace between them and around them. -/
inductive JsonLines : Bytes → List Bytes → Prop
  | nil {w : Bytes} : Ws w → JsonLines w []
  | last {w v : Bytes} : Ws w → IsValue v → JsonLines (w ++ v) [v]
  | cons {w v r : Bytes} {c : UInt8} {vs : List Bytes} : Ws w → IsValue v → IsWs c → JsonLines r vs →
      JsonLines (w ++ (v ++ c :: r)) (v :: vs)

/-- A document that is a sequence of values, and the path prefix that opens it as
one: an array, or JSON Lines with `..`. -/
inductive Sequence : Bytes → Bytes → List Bytes → Prop
  | array {doc t : Bytes} {vs : List Bytes} : IsArray t vs → Padded t doc → Sequence doc [] vs
  | lines {doc : Bytes} {vs : List Bytes} : JsonLines doc vs → Sequence doc b!".." vs

/-- Query operators. -/
inductive Op
  | eq | ne | lt | le | gt | ge | like | unlike
deriving DecidableEq, Repr

/-- An operator as the code names it. -/
def Op.name : Op → Bytes
  | .eq => b!"=" | .ne => b!"!=" | .lt => b!"<" | .le => b!"<=" | .gt => b!">" | .ge => b!">="
  | .like => b!"%" | .unlike => b!"!%"

/-- The ways to write an operator. -/
inductive Op.Written : Op → Bytes → Prop
  | name (o : Op) : Op.Written o o.name
  | eqEq : Op.Written .eq b!"=="

/-- The bytes with a meaning inside brackets. -/
def bracketSpecial : Bytes := b!"\\\"()[]{}"

/-- The content of a quoted string in a path: no quote but after a backslash. -/
inductive QuotedBody : Bytes → Prop
  | nil : QuotedBody []
  | plain {c : UInt8} {r : Bytes} : c ≠ c! '"' → c ≠ c! '\\' → QuotedBody r → QuotedBody (c :: r)
  | esc {e : UInt8} {r : Bytes} : QuotedBody r → QuotedBody (c! '\\' :: e :: r)

/-- Text in which brackets are balanced, where brackets in quoted strings and after a
backslash do not count. -/
inductive Balanced : Bytes → Prop
  | nil : Balanced []
  | plain {c : UInt8} {r : Bytes} : c ∉ bracketSpecial → Balanced r → Balanced (c :: r)
  | esc {e : UInt8} {r : Bytes} : Balanced r → Balanced (c! '\\' :: e :: r)
  | str {b r : Bytes} : QuotedBody b → Balanced r → Balanced (c! '"' :: (b ++ c! '"' :: r))
  | group {o c : UInt8} {b r : Bytes} : o ∈ b!"([{" → c ∈ b!")]}" → Balanced b → Balanced r → Balanced (o :: (b ++ c :: r))

/-- Not surrounded by blanks. -/
def Trimmed (s : Bytes) : Prop := (∀ c ∈ s.head?, ¬ c ≤ 0x20) ∧ (∀ c ∈ s.getLast?, ¬ c ≤ 0x20)

/-- A string of blanks and control bytes. -/
def Blank (w : Bytes) : Prop := ∀ c ∈ w, c ≤ 0x20

/-- A quoted string on the left of the operator: `inside` says whether it is inside
parentheses, where operators have no meaning. -/
inductive LeftQuoted (inside : Bool) : Bytes → Prop
  | nil : LeftQuoted inside []
  | plain {c : UInt8} {r : Bytes} : c ∉ b!"\"\\()" → (inside = true ∨ c ∉ b!"<>=!%") → LeftQuoted inside r → LeftQuoted inside (c :: r)
  | esc {e : UInt8} {r : Bytes} : LeftQuoted inside r → LeftQuoted inside (c! '\\' :: e :: r)

/-- The left side of a query: operators only in parentheses or after a backslash,
brackets balanced, and no parentheses in quoted strings. -/
inductive LeftText : Bool → Bytes → Prop
  | nil {inside : Bool} : LeftText inside []
  | plain {inside : Bool} {c : UInt8} {r : Bytes} : c ∉ bracketSpecial → (inside = true ∨ c ∉ b!"<>=!%") → LeftText inside r →
      LeftText inside (c :: r)
  | esc {inside : Bool} {e : UInt8} {r : Bytes} : LeftText inside r → LeftText inside (c! '\\' :: e :: r)
  | str {inside : Bool} {b r : Bytes} : LeftQuoted inside b → LeftText inside r → LeftText inside (c! '"' :: (b ++ c! '"' :: r))
  | paren {inside : Bool} {b r : Bytes} : LeftText true b → LeftText inside r → LeftText inside (c! '(' :: (b ++ c! ')' :: r))
  | bracket {inside : Bool} {o c : UInt8} {b r : Bytes} : o ∈ b!"[{" → c ∈ b!"]}" → LeftText inside b → LeftText inside r →
      LeftText inside (o :: (b ++ c :: r))

/-- The left side of a query: a path, also with queries, multipaths and modifiers,
but without a `@pretty` that may be asked to insert a prefix (for which see C04). -/
def QueryLeft (lh : Bytes) : Prop := LeftText false lh ∧ Trimmed lh ∧ ¬ AsksPrefix lh

/-- The right side of a query: any text in which brackets are balanced. -/
def QueryRight (rh : Bytes) : Prop := Balanced rh ∧ Trimmed rh

/-- The text of a query with blanks around its parts: a comparison `lh op rh`, or
only a path `lh`. An operator of one byte is not followed by `=`. -/
inductive QueryText : Bytes → Bytes → Option Op → Bytes → Prop
  | compare {lh rh o w1 w2 w3 w4 : Bytes} {op : Op} : QueryLeft lh → op.Written o → QueryRight rh →
      Blank w1 → Blank w2 → Blank w3 → Blank w4 → (o.length = 1 → ∀ c ∈ (w3 ++ rh).head?, c ≠ c! '=') →
      QueryText (w1 ++ (lh ++ (w2 ++ (o ++ (w3 ++ (rh ++ w4)))))) lh (some op) rh
  | present {lh w1 w2 : Bytes} : QueryLeft lh → lh ≠ [] → Blank w1 → Blank w2 →
      QueryText (w1 ++ (lh ++ w2)) lh none []

/-- The name of an optional operator. -/
def opName : Option Op → Bytes
  | none => []
  | some o => o.name

/-- The name of a modifier: no backslash, separator or colon. -/
def ModName (n : Bytes) : Prop := ∀ c ∈ n, c ∉ [c! '\\', c! '.', c! '|', c! ':']
instance (n : Bytes) : Decidable (ModName n) := by unfold ModName; infer_instance

/-- `ModCall n a m`: `m` is the path component that calls the modifier `n` with the
argument `a`: `@n`, or `@n:a` where `a` is plain text without separators or a JSON
string, object or array. -/
inductive ModCall (n : Bytes) : Bytes → Bytes → Prop
  | bare : ModName n → ModCall n [] (c! '@' :: n)
  | plain {a : Bytes} : ModName n → (∀ c ∈ a.head?, c ∉ [c! '{', c! '[', c! '"']) → c! '.' ∉ a → c! '|' ∉ a →
      ModCall n a (c! '@' :: (n ++ c! ':' :: a))
  | json {a : Bytes} : ModName n → IsValue a → (∀ c ∈ a.head?, c ∈ [c! '{', c! '[', c! '"']) →
      ModCall n a (c! '@' :: (n ++ c! ':' :: a))

end Gjson.Spec
