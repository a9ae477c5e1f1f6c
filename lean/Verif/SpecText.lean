import Verif.SpecWhole
/-
What is found in any text, JSON or not: how values are read from a text, which elements and
members are met in it, and what a path finds there. Nothing here asks for a text that is JSON;
`SpecSeek.lean` and `SpecWhole.lean` are the same for texts that are.
-/
namespace Gjson.Spec

/-- `ValueAt s v r`: the text `s` begins with the value `v`, and `r` follows. Strings and
brackets must be closed, by a bracket of any kind; numbers and literal names need not be right. -/
inductive ValueAt : Bytes → Bytes → Bytes → Prop
  | string {b r : Bytes} : QuotedBody b → ValueAt (c! '"' :: (b ++ c! '"' :: r)) (c! '"' :: (b ++ [c! '"'])) r
  | group {g r : Bytes} : Bracketed g → (∀ c ∈ g.head?, c ∈ b!"{[") → ValueAt (g ++ r) g r
  /-- as far as there are digits, points, signs and `e` -/
  | number {d : UInt8} {p r : Bytes} : IsDigit d ∨ d = c! '-' → (∀ c ∈ p, IsDigit c ∨ c ∈ b!".eE+-") →
      (∀ c ∈ r.head?, ¬ IsDigit c ∧ c ∉ b!".eE+-") → ValueAt (d :: (p ++ r)) (d :: p) r
  /-- any four bytes of which the first is that of `true` or `null`, any five with that of `false` -/
  | four {d : UInt8} {w r : Bytes} : d ∈ b!"tn" → w.length = 3 → ValueAt (d :: (w ++ r)) (d :: w) r
  | five {w r : Bytes} : w.length = 4 → ValueAt (c! 'f' :: (w ++ r)) (c! 'f' :: w) r

/-- The text begins with no value. -/
def NoValue (s : Bytes) : Prop := ∀ v r, ¬ ValueAt s v r

/-- The text of the value that `parse` makes of a text, empty if it makes none: an array or
object goes up to the end of the text. -/
inductive Parsed : Bytes → Bytes → Prop
  | cont {w s : Bytes} : Blank w → (∃ c ∈ s.head?, c ∈ b!"{[") → Parsed (w ++ s) s
  | value {w s v r : Bytes} : Blank w → (∀ c ∈ s.head?, c ∉ b!"{[") → ValueAt s v r → Parsed (w ++ s) v
  | none {w s : Bytes} : Blank w → (∀ c ∈ s.head?, c ∉ b!"{[" ∧ 0x20 < c) → NoValue s → Parsed (w ++ s) []

/-- The values met in a text, as after the opening bracket of an array: blanks, commas and colons
separate them. They end at a closing bracket, and where there is no value. -/
inductive Listing : Bytes → List Bytes → Prop
  | nil : Listing [] []
  | skip {c : UInt8} {r : Bytes} {vs : List Bytes} : c ≤ 0x20 ∨ c ∈ b!",:" → Listing r vs → Listing (c :: r) vs
  | close {c : UInt8} {r : Bytes} : c ∈ b!"]}" → Listing (c :: r) []
  | value {s v r : Bytes} {vs : List Bytes} : ValueAt s v r → Listing r vs → Listing s (v :: vs)
  | broken {c : UInt8} {r : Bytes} : 0x20 < c → c ∉ b!",:]}" → NoValue (c :: r) → Listing (c :: r) []

/-- The values two by two; one that is left over is dropped. -/
def twos : List Bytes → List (Bytes × Bytes)
  | a :: b :: r => (a, b) :: twos r
  | _ => []

/-- `KeyAt s kl t`: the text `s` begins with the string `kl`; blanks and colons are skipped
behind it, and then follows `t`. -/
inductive KeyAt : Bytes → Bytes → Bytes → Prop
  | key {b w t : Bytes} : QuotedBody b → (∀ c ∈ w, c ≤ 0x20 ∨ c = c! ':') → (∀ c ∈ t.head?, 0x20 < c ∧ c ≠ c! ':') →
      KeyAt (c! '"' :: (b ++ c! '"' :: (w ++ t))) (c! '"' :: (b ++ [c! '"'])) t

/-- The search goes on inside of the text `t` with the parts `P'`: a dot follows, behind it no
modifier or multipath, and `t` begins with a bracket. -/
def GoesInto (P P' : Parts) (t : Bytes) : Prop :=
  P.sep = c! '.' ∧ CutUp P.rest P' ∧ ¬ Computes P'.comp ∧ ∃ c ∈ t.head?, c ∈ b!"{["

mutual
/-- `Hunt A P s o`: the outcome of looking for a path with the parts `P` among the members in
the text `s`, as after the opening bracket of an object. -/
inductive Hunt (A : Asks) : Parts → Bytes → Option Landing → Prop
  | nil {P : Parts} : Hunt A P [] none
  | close {P : Parts} {r : Bytes} : Hunt A P (c! '}' :: r) none
  /-- all that is not a string is skipped where a key is expected -/
  | skip {P : Parts} {c : UInt8} {r : Bytes} {o : Option Landing} : c ∉ b!"}\"" → Hunt A P r o → Hunt A P (c :: r) o
  /-- a key that is not closed, or that nothing follows -/
  | openKey {P : Parts} {r : Bytes} : NeverClosed (c! '"' :: r) → Hunt A P (c! '"' :: r) none
  | alone {P : Parts} {s kl : Bytes} : KeyAt s kl [] → Hunt A P s none
  | pass {P : Parts} {s kl t v r : Bytes} {o : Option Landing} : KeyAt s kl t → ¬ A.hit P.comp (P.esc || P.wild) kl → ValueAt t v r →
      Hunt A P r o → Hunt A P s o
  | take {P : Parts} {s kl t v r : Bytes} : KeyAt s kl t → A.hit P.comp (P.esc || P.wild) kl → (∀ P', ¬ GoesInto P P' t) → ValueAt t v r →
      Hunt A P s (some ⟨v, P.sep, P.rest⟩)
  /-- without a value behind the key the search is over -/
  | broken {P : Parts} {s kl t : Bytes} : KeyAt s kl t → ¬ A.hit P.comp (P.esc || P.wild) kl ∨ (∀ P', ¬ GoesInto P P' t) → NoValue t →
      Hunt A P s none
  /-- inside of the value, which need not be closed; if nothing is found there, reading goes on
  at its beginning -/
  | into {P P' : Parts} {s kl t : Bytes} {l : Landing} : KeyAt s kl t → A.hit P.comp (P.esc || P.wild) kl → GoesInto P P' t →
      Probe A P' t (some l) → Hunt A P s (some l)
  | again {P P' : Parts} {s kl t : Bytes} {o : Option Landing} : KeyAt s kl t → A.hit P.comp (P.esc || P.wild) kl → GoesInto P P' t →
      Probe A P' t none → Hunt A P t o → Hunt A P s o
/-- `Probe A P s o`: the outcome in a text `s` that begins with a bracket. -/
inductive Probe (A : Asks) : Parts → Bytes → Option Landing → Prop
  | object {P : Parts} {r : Bytes} {o : Option Landing} : Hunt A P r o → Probe A P (c! '{' :: r) o
  | array {P : Parts} {r : Bytes} {vs : List Bytes} {o : Option Landing} : Listing r vs → Picks A vs P o → Probe A P (c! '[' :: r) o
end

/-- The outcome in a whole text: blanks in front of a bracket are skipped. -/
inductive Look (A : Asks) : Bytes → Parts → Option Landing → Prop
  | inside {w s : Bytes} {P : Parts} {o : Option Landing} : Blank w → Probe A P s o → Look A (w ++ s) P o
  | nothing {w s : Bytes} {P : Parts} : Blank w → (∀ c ∈ s.head?, c ∉ b!"{[" ∧ 0x20 < c) → Look A (w ++ s) P none

/-! ### Every path -/

/-- What a search asks, if `G` says what shorter paths find. -/
def asksIn (G : Bytes → Bytes → Bytes → Prop) : Asks where
  ask e g o := ∃ x, G e g x ∧ o = if x = [] then none else some x
  holds lh op rh e b := ∃ x, (if lh = [] then x = e else G e lh x) ∧ Answers x op rh b
  hit k pattern kl := ∃ b s, kl = c! '"' :: (b ++ [c! '"']) ∧ Told b s ∧
    if pattern then MatchesE (fun c d => c = d ∨ c = c! '?') k s else s = k

/-! ### Modifiers -/

/-- What `ugly` leaves of a text: strings, and other bytes unless they are blank. -/
inductive Pressed : Bytes → Bytes → Prop
  | nil : Pressed [] []
  | blank {c : UInt8} {r o : Bytes} : c ≤ 0x20 → Pressed r o → Pressed (c :: r) o
  | string {b r o : Bytes} : QuotedBody b → Pressed r o → Pressed (c! '"' :: (b ++ c! '"' :: r)) (c! '"' :: (b ++ c! '"' :: o))
  | openString {r : Bytes} : NeverClosed (c! '"' :: r) → Pressed (c! '"' :: r) (c! '"' :: r)
  | other {c : UInt8} {r o : Bytes} : 0x20 < c → c ≠ c! '"' → Pressed r o → Pressed (c :: r) (c :: o)

/-- Blanks, commas and colons. -/
def Seps (w : Bytes) : Prop := ∀ c ∈ w, c ≤ 0x20 ∨ c ∈ b!",:"

/-- The values met in a text two by two, with what stands between the two. -/
inductive Spans : Bytes → List Bytes → Prop
  | rest {s : Bytes} {vs : List Bytes} : Listing s vs → vs.length ≤ 1 → Spans s []
  | pair {w k m v r : Bytes} {ps : List Bytes} : Seps w → ValueAt (k ++ (m ++ (v ++ r))) k (m ++ (v ++ r)) → Seps m → ValueAt (v ++ r) v r →
      Spans r ps → Spans (w ++ (k ++ (m ++ (v ++ r)))) ((k ++ (m ++ v)) :: ps)

/-- Arrays replaced by the values met in them, and so on for arrays inside of them. -/
inductive Sunk : List Bytes → List Bytes → Prop
  | nil : Sunk [] []
  | keep {v : Bytes} {vs ls : List Bytes} : kindOf v ≠ .array → Sunk vs ls → Sunk (v :: vs) (v :: ls)
  | splice {r : Bytes} {ws ks vs ls : List Bytes} : Listing r ws → Sunk ws ks → Sunk vs ls → Sunk ((c! '[' :: r) :: vs) (ks ++ ls)

/-- The keys and values met in the objects among the values. -/
inductive Entries : List Bytes → List (Bytes × Bytes) → Prop
  | nil : Entries [] []
  | skip {v : Bytes} {vs : List Bytes} {ms : List (Bytes × Bytes)} : kindOf v ≠ .object → Entries vs ms → Entries (v :: vs) ms
  | take {r : Bytes} {ws vs : List Bytes} {ms : List (Bytes × Bytes)} : Listing r ws → Entries vs ms → Entries ((c! '{' :: r) :: vs) (twos ws ++ ms)

/-- The option `k` in the argument `a` of a modifier is set or not. -/
def Chosen (a k : Bytes) (b : Bool) : Prop :=
  ∃ o, Look (asksIn fun _ _ _ => False) a ⟨k, false, false, 0, 0, []⟩ o ∧ BoolOf (landing ⟨k, false, false, 0, 0, []⟩ o).text b

/-- `Turns n a doc out`: the modifier `n` with the argument `a` makes `out` of `doc`. -/
inductive Turns : Bytes → Bytes → Bytes → Bytes → Prop
  | this {a doc : Bytes} : Turns b!"this" a doc doc
  | valid {a doc : Bytes} : JsonText doc → Turns b!"valid" a doc doc
  | invalid {a doc : Bytes} : ¬ JsonText doc → Turns b!"valid" a doc []
  | unknown {n a doc : Bytes} : n ∉ modNames → Turns n a doc []
  | ugly {a doc out : Bytes} : Pressed doc out → Turns b!"ugly" a doc out
  | reverseArray {a doc r : Bytes} {vs : List Bytes} : Parsed doc (c! '[' :: r) → Listing r vs → Turns b!"reverse" a doc (arrayText vs.reverse)
  | reverseObject {a doc r : Bytes} {ps : List Bytes} : Parsed doc (c! '{' :: r) → Spans r ps →
      Turns b!"reverse" a doc (c! '{' :: (commaSep ps.reverse ++ b!"}"))
  | reverseOther {a doc x : Bytes} : Parsed doc x → kindOf x ≠ .object → kindOf x ≠ .array → Turns b!"reverse" a doc x
  | flatten {a doc r : Bytes} {vs : List Bytes} : Parsed doc (c! '[' :: r) → Listing r vs → Chosen a b!"deep" false →
      Turns b!"flatten" a doc (arrayText (flatPieces vs))
  | flattenDeep {a doc r : Bytes} {vs ls : List Bytes} : Parsed doc (c! '[' :: r) → Listing r vs → Chosen a b!"deep" true → Sunk vs ls →
      Turns b!"flatten" a doc (arrayText ls)
  | join {a doc r : Bytes} {vs : List Bytes} {ms : List (Bytes × Bytes)} {dec : Bytes → Bytes} : Parsed doc (c! '[' :: r) → Listing r vs →
      Chosen a b!"preserve" false → Entries vs ms → (∀ m ∈ ms, StrOf m.1 (dec m.1)) →
      Turns b!"join" a doc (objectText (mergeMembers dec ms))
  | joinKeep {a doc r : Bytes} {vs : List Bytes} : Parsed doc (c! '[' :: r) → Listing r vs → Chosen a b!"preserve" true →
      Turns b!"join" a doc (c! '{' :: (commaSep (keptPieces vs) ++ b!"}"))
  | noArray {n a doc x : Bytes} : n = b!"flatten" ∨ n = b!"join" → Parsed doc x → kindOf x ≠ .array → Turns n a doc doc
  /-- `@pretty` for JSON -/
  | pretty {a doc out : Bytes} : Writes b!"pretty" a doc out → Turns b!"pretty" a doc out

/-- A text that begins with a quote begins with a string: it is closed. -/
def Fair (s : Bytes) : Prop := ∀ w r, Blank w → s = w ++ c! '"' :: r → ∃ v q, ValueAt (c! '"' :: r) v q

/-- `YieldsBy G doc path r`: `path` finds `r` in `doc`, if `G` says what shorter paths find. -/
inductive YieldsBy (G : Bytes → Bytes → Bytes → Prop) : Bytes → Bytes → Bytes → Prop
  | look {doc path r : Bytes} {P : Parts} {o : Option Landing} : ¬ b!".." <+: path → CutUp path P → ¬ Computes P.comp →
      Look (asksIn G) doc P o → Onward G (landing P o).text (landing P o).sep (landing P o).rest r → YieldsBy G doc path r
  | lines {doc path r : Bytes} {vs : List Bytes} {P : Parts} {o : Option Landing} : Listing doc vs → CutUp path P →
      Picks (asksIn G) vs P o → Onward G (landing P o).text (landing P o).sep (landing P o).rest r → YieldsBy G doc (b!".." ++ path) r
  | call {doc path n a out x r : Bytes} {P : Parts} : CutUp path P → CallOf P.comp P.arg n a → Turns n a doc out → Fair out → Parsed out x →
      Onward G x P.sep P.rest r → YieldsBy G doc path r
  | array {doc path s r : Bytes} {P : Parts} {es : List (Bytes × Bytes)} {xs : List Bytes} : CutUp path P → P.comp = c! '[' :: (s ++ b!"]") →
      EntriesOf s es → Aligned (fun e x => G doc e.2 x) es xs → Onward G (arrayText (xs.filter fun x => x ≠ [])) P.sep P.rest r →
      YieldsBy G doc path r
  | object {doc path s r : Bytes} {P : Parts} {es : List (Bytes × Bytes)} {xs : List Bytes} : CutUp path P → P.comp = c! '{' :: (s ++ b!"}") →
      EntriesOf s es → Aligned (fun e x => G doc e.2 x) es xs →
      Onward G (objectText (((es.zip xs).map fun m => (quoted m.1.1, m.2)).filter fun m => m.2 ≠ [])) P.sep P.rest r → YieldsBy G doc path r
  | wrong {doc path : Bytes} {P : Parts} : CutUp path P →
      P.comp.head? = some c! '[' ∧ P.comp.getLast? ≠ some c! ']' ∨ P.comp.head? = some c! '{' ∧ P.comp.getLast? ≠ some c! '}' →
      YieldsBy G doc path []

/-- The levels. -/
def YieldsAt : Nat → Bytes → Bytes → Bytes → Prop
  | 0 => fun _ _ _ => False
  | n + 1 => YieldsBy (YieldsAt n)

/-- `path` finds `r` in `doc`, which may be any text; the empty text stands for nothing. -/
def Yields (doc path r : Bytes) : Prop := ∃ n, YieldsAt n doc path r

/-- The same also for texts that begin with an open string, where a modifier can be applied to
it: only the text of the result is told. `B` says what the parts of a multipath bring. -/
inductive BringsBy (B : Bytes → Bytes → Bytes → Prop) : Bytes → Bytes → Bytes → Prop
  | yields {doc path r : Bytes} : Yields doc path r → BringsBy B doc path r
  | call {doc path n a out x r : Bytes} {P : Parts} : CutUp path P → CallOf P.comp P.arg n a → Turns n a doc out → Parsed out x →
      Onward Yields x P.sep P.rest r → BringsBy B doc path r
  | array {doc path s r : Bytes} {P : Parts} {es : List (Bytes × Bytes)} {xs : List Bytes} : CutUp path P → P.comp = c! '[' :: (s ++ b!"]") →
      EntriesOf s es → Aligned (fun e x => B doc e.2 x) es xs → Onward Yields (arrayText (xs.filter fun x => x ≠ [])) P.sep P.rest r →
      BringsBy B doc path r
  | object {doc path s r : Bytes} {P : Parts} {es : List (Bytes × Bytes)} {xs : List Bytes} : CutUp path P → P.comp = c! '{' :: (s ++ b!"}") →
      EntriesOf s es → Aligned (fun e x => B doc e.2 x) es xs →
      Onward Yields (objectText (((es.zip xs).map fun m => (quoted m.1.1, m.2)).filter fun m => m.2 ≠ [])) P.sep P.rest r → BringsBy B doc path r

/-- The levels. -/
def BringsAt : Nat → Bytes → Bytes → Bytes → Prop
  | 0 => fun _ _ _ => False
  | n + 1 => BringsBy (BringsAt n)

/-- `path` brings the text `r` out of any text `doc`. -/
def Brings (doc path r : Bytes) : Prop := ∃ n, BringsAt n doc path r

/-- No modifier is called in the path. -/
def NoCalls (path : Bytes) : Prop := ∀ q P n a, Asked q path → CutUp q P → ¬ CallOf P.comp P.arg n a

/-- No modifier called in the path is `@pretty`. -/
def Unpretty (path : Bytes) : Prop := ∀ q P n a, Asked q path → CutUp q P → CallOf P.comp P.arg n a → n ≠ b!"pretty"

end Gjson.Spec
