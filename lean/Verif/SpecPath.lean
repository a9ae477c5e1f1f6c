import Verif.SpecSearch
import Verif.SpecMods
import Verif.SpecMulti
import Verif.SpecLayout
import Verif.SpecQuery
/-
What a path means, for all kinds of components together: keys, patterns, indices,
`#`, queries, modifiers, multipaths and JSON Lines, joined by dots and pipes. Texts in,
text out; the empty text stands for a missing value. The rules mention the grammar of
JSON and of paths only.

Where following a path component by component and the code differ, the rules say what
the code does: the search for a key goes on when the value of a member does not have
the rest of the path (see `Spec.Walk`).
-/
namespace Gjson.Spec

/-- A component that looks something up. -/
inductive Step : Bytes → Prop
  | selector {k : Bytes} : Selector k → Step k
  | hash : Step b!"#"
  | first {q lh rh : Bytes} {op : Option Op} : QueryText q lh op rh → Step (b!"#(" ++ (q ++ b!")"))
  | all {q lh rh : Bytes} {op : Option Op} : QueryText q lh op rh → Step (b!"#(" ++ (q ++ b!")#"))

/-- The component `k` selects a member with the key literal `kl`. `#` and queries have
no meaning for objects, they are compared as they are. -/
def Selects (k kl : Bytes) : Prop :=
  ∃ s, Content kl s ∧ if k.head? = some c! '#' then s = k else MatchesE (fun c d => c = d ∨ c = c! '?') k s

/-- A byte in a key as JSON writes it. -/
def quotedByte (c : UInt8) : Bytes :=
  match [(c! '"', c! '"'), (c! '\\', c! '\\'), (8, c! 'b'), (12, c! 'f'), (10, c! 'n'), (13, c! 'r'), (9, c! 't')].lookup c with
  | some e => [c! '\\', e]
  | none =>
    if c < 0x20 then b!"\\u00" ++ [b!"0123456789ABCDEF".getD (c.toNat / 16) 0, b!"0123456789ABCDEF".getD (c.toNat % 16) 0]
    else [c]

/-- A key as a string literal. -/
def quoted (k : Bytes) : Bytes := c! '"' :: (k.flatMap quotedByte ++ [c! '"'])

/-- What `parse` keeps of a text: nothing of whitespace, a scalar without whitespace,
and from an opening bracket on everything. -/
inductive Kept : Bytes → Bytes → Prop
  | blank {w : Bytes} : Ws w → Kept w []
  | scalar {v doc : Bytes} : IsValue v → kindOf v ≠ .object → kindOf v ≠ .array → Padded v doc → Kept doc v
  | cont {w r : Bytes} : Ws w → kindOf r = .object ∨ kindOf r = .array → Kept (w ++ r) r

/-- A member without whitespace around it. -/
def Member.bare (m : Member) : Bytes := m.key ++ (m.mid1 ++ c! ':' :: (m.mid2 ++ m.val))

/-- The names of the modifiers. -/
def modNames : List Bytes := [b!"this", b!"valid", b!"reverse", b!"ugly", b!"pretty", b!"flatten", b!"join"]

mutual
/-- `Means doc path r`: `r` is the text that `path` finds in the text `doc`. -/
inductive Means : Bytes → Bytes → Bytes → Prop
  /-- arrays and objects -/
  | look {doc v path r : Bytes} {b : Bool} : Padded v doc → Seeks v path r b → Means doc path r
  /-- nothing can be looked up in nothing and in scalars -/
  | empty {k t r : Bytes} : Step k → Then [] t r → Means [] (k ++ t) r
  | scalar {doc v k t r : Bytes} : IsValue v → Padded v doc → kindOf v ≠ .object → kindOf v ≠ .array → Step k → Then [] t r →
      Means doc (k ++ t) r
  /-- JSON Lines -/
  | lines {doc path r : Bytes} {vs : List Bytes} {b : Bool} : JsonLines doc vs → Rows vs path r b → Means doc (b!".." ++ path) r
  /-- modifiers -/
  | call {doc n a m out x t r : Bytes} : ModCall n a m → Writes n a doc out → Kept out x → Then x t r → Means doc (m ++ t) r
  /-- multipaths -/
  | array {doc t r : Bytes} {ts : List Bytes} {es : List (Bytes × Bytes)} {f : Bytes → Bytes} :
      Aligned (fun t e => Entry t e.1 e.2) ts es → ts ≠ [] → (∀ e ∈ es, Means doc e.2 (f e.2)) →
      Then (arrayText ((es.map fun e => f e.2).filter fun x => x ≠ [])) t r → Means doc (c! '[' :: (commaSep ts ++ c! ']' :: t)) r
  | object {doc t r : Bytes} {ts : List Bytes} {es : List (Bytes × Bytes)} {f : Bytes → Bytes} :
      Aligned (fun t e => Entry t e.1 e.2) ts es → ts ≠ [] → (∀ e ∈ es, Means doc e.2 (f e.2)) →
      Then (objectText ((es.map fun e => (quoted e.1, f e.2)).filter fun m => m.2 ≠ [])) t r →
      Means doc (c! '{' :: (commaSep ts ++ c! '}' :: t)) r
/-- `Then x t r`: what follows a component, applied to what it found: nothing, or a
separator and the rest of the path. -/
inductive Then : Bytes → Bytes → Bytes → Prop
  | done {x : Bytes} : Then x [] x
  | dot {x rest r : Bytes} : Means x rest r → Then x (c! '.' :: rest) r
  | pipe {x rest r : Bytes} : Means x rest r → Then x (c! '|' :: rest) r
/-- `Seeks v path r found`: looking up the path in the array or object `v` gives `r`;
`found` says whether the first components have found something, in which case a search
around `v` does not go on. -/
inductive Seeks : Bytes → Bytes → Bytes → Bool → Prop
  | obj {v k t r : Bytes} {kvs : List (Bytes × Bytes)} {b : Bool} : IsObject v kvs → Step k →
      Walks k t (kvs.map fun m => .member m.1 m.2) r b → Seeks v (k ++ t) r b
  | arr {v path r : Bytes} {vs : List Bytes} {b : Bool} : IsArray v vs → Rows vs path r b → Seeks v path r b
/-- `Walks k t es r found`: looking for the key `k` among the entries `es`, and for what
follows `k` in the path in the value of that member. -/
inductive Walks : Bytes → Bytes → List Seen → Bytes → Bool → Prop
  | nil {k t r : Bytes} : Then [] t r → Walks k t [] r false
  | stop {k t r : Bytes} {es : List Seen} : Then [] t r → Walks k t (.stop :: es) r false
  | skip {k t kl x r : Bytes} {es : List Seen} {b : Bool} : ¬ Selects k kl → Walks k t es r b → Walks k t (.member kl x :: es) r b
  /-- at the end of the path, before a pipe, a modifier or a multipath, or at a scalar -/
  | hit {k t kl x r : Bytes} {es : List Seen} : Selects k kl →
      (kindOf x ≠ .object ∧ kindOf x ≠ .array) ∨ (∀ rest, t = c! '.' :: rest → ∃ c ∈ rest.head?, c ∈ b!"@{[") →
      Then x t r → Walks k t (.member kl x :: es) r true
  /-- the rest of the path is looked up in the value -/
  | into {k rest kl x r : Bytes} {es : List Seen} : Selects k kl → Seeks x rest r true →
      Walks k (c! '.' :: rest) (.member kl x :: es) r true
  /-- if that finds nothing, the search goes on inside the value -/
  | again {k rest kl x r' r : Bytes} {es es' : List Seen} {b : Bool} : Selects k kl → Seeks x rest r' false → Met [x] es' →
      Walks k (c! '.' :: rest) (es' ++ es) r b → Walks k (c! '.' :: rest) (.member kl x :: es) r b
/-- `Rows vs path r found`: looking up the path in an array or JSON Lines with the
elements `vs`. -/
inductive Rows : List Bytes → Bytes → Bytes → Bool → Prop
  | elem {vs : List Bytes} {k t e r : Bytes} {n : Nat} : Selector k → IndexText k n → n < 2 ^ 63 → vs[n]? = some e → Then e t r →
      Rows vs (k ++ t) r true
  | beyond {vs : List Bytes} {k t r : Bytes} : Selector k → (∀ n, IndexText k n → n < 2 ^ 63 → vs[n]? = none) → Then [] t r →
      Rows vs (k ++ t) r false
  /-- `#` alone is the number of elements -/
  | count {vs : List Bytes} {t r : Bytes} : (∀ c ∈ t.head?, c = c! '|') → Then (numeral vs.length) t r → Rows vs (b!"#" ++ t) r true
  /-- `#.` applies the path up to the next pipe to each element -/
  | map {vs ks : List Bytes} {t r : Bytes} {f : Bytes → Bytes} : (∀ k ∈ ks, Part k) → ks ≠ [] → (∀ c ∈ t.head?, c = c! '|') →
      (∀ v ∈ vs, Means v (dotPath ks) (f v)) → Then (arrayText ((vs.map f).filter fun x => x ≠ [])) t r →
      Rows vs (b!"#." ++ (dotPath ks ++ t)) r true
  /-- `#(…)` is the first element for which the query holds -/
  | first {vs : List Bytes} {q lh rh t e r : Bytes} {op : Option Op} {test : Bytes → Bool} : QueryText q lh op rh →
      (∀ v ∈ vs, Test lh op rh v (test v)) → vs.find? test = some e → Then e t r → Rows vs (b!"#(" ++ (q ++ b!")") ++ t) r true
  | firstNone {vs : List Bytes} {q lh rh t r : Bytes} {op : Option Op} {test : Bytes → Bool} : QueryText q lh op rh →
      (∀ v ∈ vs, Test lh op rh v (test v)) → vs.find? test = none → Then [] t r → Rows vs (b!"#(" ++ (q ++ b!")") ++ t) r false
  /-- `#(…)#` is the array of all of them -/
  | all {vs : List Bytes} {q lh rh t r : Bytes} {op : Option Op} {test : Bytes → Bool} : QueryText q lh op rh →
      (∀ v ∈ vs, Test lh op rh v (test v)) → (∀ c ∈ t.head?, c = c! '|') → Then (arrayText (vs.filter test)) t r →
      Rows vs (b!"#(" ++ (q ++ b!")#") ++ t) r true
  | allMap {vs ks : List Bytes} {q lh rh t r : Bytes} {op : Option Op} {test : Bytes → Bool} {f : Bytes → Bytes} : QueryText q lh op rh →
      (∀ v ∈ vs, Test lh op rh v (test v)) → (∀ k ∈ ks, Part k) → ks ≠ [] → (∀ c ∈ t.head?, c = c! '|') →
      (∀ v ∈ vs.filter test, Means v (dotPath ks) (f v)) →
      Then (arrayText (((vs.filter test).map f).filter fun x => x ≠ [])) t r →
      Rows vs (b!"#(" ++ (q ++ b!")#") ++ c! '.' :: (dotPath ks ++ t)) r true
/-- `Test lh op rh e b`: `b` is the answer of the query for the element `e`. -/
inductive Test : Bytes → Option Op → Bytes → Bytes → Bool → Prop
  | self {op : Option Op} {rh e : Bytes} {b : Bool} : Compared op rh e b → Test [] op rh e b
  | path {lh rh e x : Bytes} {op : Option Op} {b : Bool} : lh ≠ [] → Means e lh x → Compared op rh x b → Test lh op rh e b
/-- `Writes n a doc out`: the modifier `n` with the argument `a` turns `doc` into `out`. -/
inductive Writes : Bytes → Bytes → Bytes → Bytes → Prop
  | this {a doc : Bytes} : Writes b!"this" a doc doc
  | valid {a doc : Bytes} : JsonText doc → Writes b!"valid" a doc doc
  | invalid {a doc : Bytes} : ¬ JsonText doc → Writes b!"valid" a doc []
  | unknown {n a doc : Bytes} : n ∉ modNames → Writes n a doc []
  | reverseArray {a v doc : Bytes} {vs : List Bytes} : IsArray v vs → Padded v doc → Writes b!"reverse" a doc (arrayText vs.reverse)
  | reverseObject {a doc : Bytes} {ms : List Member} : (∀ m ∈ ms, m.Wf) → (∀ m ∈ ms, IsValue m.val) →
      Padded (c! '{' :: (membersText ms ++ [c! '}'])) doc →
      Writes b!"reverse" a doc (c! '{' :: (commaSep (ms.reverse.map Member.bare) ++ [c! '}']))
  | reverseEmpty {a w doc : Bytes} : Ws w → Padded (c! '{' :: (w ++ [c! '}'])) doc → Writes b!"reverse" a doc b!"{}"
  | reverseScalar {a v doc : Bytes} : IsValue v → kindOf v ≠ .object → kindOf v ≠ .array → Padded v doc → Writes b!"reverse" a doc v
  | reverseNone {a : Bytes} : Writes b!"reverse" a [] []
  | ugly {a doc : Bytes} : JsonText doc → Writes b!"ugly" a doc (tokens doc).flatten
  | uglyNone {a : Bytes} : Writes b!"ugly" a [] []
  /-- the options `indent`, `prefix`, `sortKeys` and `width` -/
  | pretty {a v doc xi xp xs xw indent pfx : Bytes} {d : Doc} {sort : Bool} {n : Nat} {width : Nat} : Padded v doc → Denotes v d →
      Means a b!"indent" xi → (xi = [] ∧ indent = b!"  " ∨ xi ≠ [] ∧ StrVal xi indent) →
      Means a b!"prefix" xp → StrVal xp pfx → Means a b!"sortKeys" xs → Truth xs sort →
      Means a b!"width" xw → (xw = [] ∧ width = 80 ∨ xw ≠ [] ∧ UnsignedVal xw n ∧ width = min n (2 ^ 32 - 1)) →
      Writes b!"pretty" a doc (pfx ++ (d.laid ⟨width, pfx, indent⟩ sort 499 ++ b!"\n"))
  | prettyNone {a x pfx : Bytes} : Means a b!"prefix" x → StrVal x pfx → Writes b!"pretty" a [] (if pfx = [] then [] else pfx ++ b!"\n")
  | flatten {a v doc x : Bytes} {vs : List Bytes} : IsArray v vs → Padded v doc → Means a b!"deep" x → Truth x false →
      Writes b!"flatten" a doc (arrayText (flatPieces vs))
  | flattenDeep {a v doc x : Bytes} {vs ls : List Bytes} : IsArray v vs → Padded v doc → Means a b!"deep" x → Truth x true →
      DeepFlattened vs ls → Writes b!"flatten" a doc (arrayText ls)
  | join {a v doc x : Bytes} {vs : List Bytes} {mss : List (List (Bytes × Bytes))} {dec : Bytes → Bytes} : IsArray v vs → Padded v doc →
      Means a b!"preserve" x → Truth x false → ObjectsOf vs mss → (∀ m ∈ mss.flatten, Content m.1 (dec m.1)) →
      Writes b!"join" a doc (objectText (mergeMembers dec mss.flatten))
  | joinKeep {a v doc x : Bytes} {vs : List Bytes} : IsArray v vs → Padded v doc → Means a b!"preserve" x → Truth x true →
      Writes b!"join" a doc (c! '{' :: (commaSep (keptPieces vs) ++ [c! '}']))
  /-- `@flatten` and `@join` leave everything but arrays as it is -/
  | noArray {n a v doc : Bytes} : n = b!"flatten" ∨ n = b!"join" → IsValue v → kindOf v ≠ .array → Padded v doc → Writes n a doc doc
  | noneArray {n a : Bytes} : n = b!"flatten" ∨ n = b!"join" → Writes n a [] []
end

end Gjson.Spec
