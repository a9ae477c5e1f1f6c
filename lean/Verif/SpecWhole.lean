import Verif.SpecSeek
import Verif.SpecEntries
import Verif.SpecAny
import Verif.SpecRoute
/-
What every path finds in every JSON document, as one relation between texts: the search
(SpecSeek.lean), queries (SpecAny.lean), modifiers (SpecPath.lean) and multipaths
(SpecEntries.lean) put together. Every path occurring in a path is shorter than it, so the
relation is given by levels.
-/
namespace Gjson.Spec

/-- What a search asks, if `G` says what shorter paths find: the empty text stands for nothing.
A component with a backslash or a wildcard is a pattern. -/
def asksOf (G : Bytes → Bytes → Bytes → Prop) : Asks where
  ask e g o := ∃ x, G e g x ∧ o = if x = [] then none else some x
  holds lh op rh e b := ∃ x, (if lh = [] then IsValue e ∧ x = e else G e lh x) ∧ Answers x op rh b
  hit k pattern kl := ∃ s, Content kl s ∧ if pattern then MatchesE (fun c d => c = d ∨ c = c! '?') k s else s = k

/-- What remains of the path, applied to the text `x`. -/
inductive Onward (G : Bytes → Bytes → Bytes → Prop) : Bytes → UInt8 → Bytes → Bytes → Prop
  | done {x rest : Bytes} : Onward G x 0 rest x
  | more {x rest r : Bytes} {sep : UInt8} : sep ≠ 0 → G x rest r → Onward G x sep rest r

/-- The same after a search: what it found, or nothing and all behind the first component. -/
def landing (P : Parts) (o : Option Landing) : Landing := o.getD ⟨[], P.sep, P.rest⟩

/-- `ObtainsBy G doc path r`: `path` finds `r` in `doc`, if `G` says what shorter paths find. -/
inductive ObtainsBy (G : Bytes → Bytes → Bytes → Prop) : Bytes → Bytes → Bytes → Prop
  | look {doc v path r : Bytes} {P : Parts} {o : Option Landing} : Padded v doc → IsValue v → ¬ b!".." <+: path → CutUp path P →
      ¬ Computes P.comp → Seek (asksOf G) v P o → Onward G (landing P o).text (landing P o).sep (landing P o).rest r → ObtainsBy G doc path r
  /-- nothing is found in nothing -/
  | nothing {path r : Bytes} {P : Parts} : ¬ b!".." <+: path → CutUp path P → ¬ Computes P.comp → Onward G [] P.sep P.rest r →
      ObtainsBy G [] path r
  /-- JSON Lines; here modifiers and multipaths have no meaning as the first component -/
  | lines {doc path r : Bytes} {vs : List Bytes} {P : Parts} {o : Option Landing} : JsonLines doc vs → CutUp path P →
      Picks (asksOf G) vs P o → Onward G (landing P o).text (landing P o).sep (landing P o).rest r → ObtainsBy G doc (b!".." ++ path) r
  /-- modifiers -/
  | call {doc path n a out x r : Bytes} {P : Parts} : CutUp path P → CallOf P.comp P.arg n a → Writes n a doc out → Kept out x →
      Onward G x P.sep P.rest r → ObtainsBy G doc path r
  /-- multipaths -/
  | array {doc path s r : Bytes} {P : Parts} {es : List (Bytes × Bytes)} {xs : List Bytes} : CutUp path P → P.comp = c! '[' :: (s ++ b!"]") →
      EntriesOf s es → Aligned (fun e x => G doc e.2 x) es xs → Onward G (arrayText (xs.filter fun x => x ≠ [])) P.sep P.rest r →
      ObtainsBy G doc path r
  | object {doc path s r : Bytes} {P : Parts} {es : List (Bytes × Bytes)} {xs : List Bytes} : CutUp path P → P.comp = c! '{' :: (s ++ b!"}") →
      EntriesOf s es → Aligned (fun e x => G doc e.2 x) es xs →
      Onward G (objectText (((es.zip xs).map fun m => (quoted m.1.1, m.2)).filter fun m => m.2 ≠ [])) P.sep P.rest r → ObtainsBy G doc path r
  /-- a multipath without its closing bracket -/
  | wrong {doc path : Bytes} {P : Parts} : CutUp path P →
      P.comp.head? = some c! '[' ∧ P.comp.getLast? ≠ some c! ']' ∨ P.comp.head? = some c! '{' ∧ P.comp.getLast? ≠ some c! '}' →
      ObtainsBy G doc path []

/-- The levels. -/
def ObtainsAt : Nat → Bytes → Bytes → Bytes → Prop
  | 0 => fun _ _ _ => False
  | n + 1 => ObtainsBy (ObtainsAt n)

/-- `path` finds `r` in `doc`; the empty text stands for nothing. -/
def Obtains (doc path r : Bytes) : Prop := ∃ n, ObtainsAt n doc path r

/-- A path that calls neither `@flatten`, nor `@join` and `@pretty` with an argument: only these
can make something else than JSON of JSON. -/
def Mild (path : Bytes) : Prop := ∀ w ∈ [b!"@flatten", b!"@join:", b!"@pretty:"], ¬ w <:+: path

/-- `Asked q p`: the path `q` is asked when `p` is. -/
inductive Asked : Bytes → Bytes → Prop
  | self {p : Bytes} : Asked p p
  | lines {q p : Bytes} : Asked q p → Asked q (b!".." ++ p)
  | rest {q p : Bytes} {P : Parts} : CutUp p P → P.sep ≠ 0 → Asked q P.rest → Asked q p
  /-- what follows `#.` is asked of the elements -/
  | group {q p g r : Bytes} {P : Parts} {sep : UInt8} : CutUp p P → P.sep = c! '.' → GroupOf P.rest g sep r → Asked q g → Asked q p
  /-- the left hand side of a query -/
  | left {q p lh op rh : Bytes} {P : Parts} : CutUp p P → QueryCut P.comp lh op rh → lh ≠ [] → Asked q lh → Asked q p
  /-- an entry of a multipath -/
  | entry {q p s : Bytes} {o c : UInt8} {P : Parts} {es : List (Bytes × Bytes)} {e : Bytes × Bytes} : CutUp p P → P.comp = o :: (s ++ [c]) →
      o = c! '[' ∧ c = c! ']' ∨ o = c! '{' ∧ c = c! '}' → EntriesOf s es → e ∈ es → Asked q e.2 → Asked q p

/-- `MakesJson n a`: the modifier `n` with the argument `a` makes JSON of all JSON. -/
inductive MakesJson : Bytes → Bytes → Prop
  | other {n a : Bytes} : n ∉ [b!"pretty", b!"flatten", b!"join"] → MakesJson n a
  | deep {a x : Bytes} : Means a b!"deep" x → Truth x true → MakesJson b!"flatten" a
  | join {a x : Bytes} : Means a b!"preserve" x → Truth x false → MakesJson b!"join" a
  | pretty {a xi xp xs xw indent pfx : Bytes} {sort : Bool} {n width : Nat} : Means a b!"indent" xi →
      (xi = [] ∧ indent = b!"  " ∨ xi ≠ [] ∧ StrVal xi indent) → Ws indent → Means a b!"prefix" xp → StrVal xp pfx → Ws pfx →
      Means a b!"sortKeys" xs → Truth xs sort → Means a b!"width" xw →
      (xw = [] ∧ width = 80 ∨ xw ≠ [] ∧ UnsignedVal xw n ∧ width = min n (2 ^ 32 - 1)) → MakesJson b!"pretty" a

/-- Every modifier called in the path makes JSON of all JSON. -/
def Harmless (path : Bytes) : Prop := ∀ q P n a, Asked q path → CutUp q P → CallOf P.comp P.arg n a → MakesJson n a

/-- A JSON value with nothing between the brackets of empty arrays and objects. -/
inductive Tidy : Bytes → Prop
  | scalar {v : Bytes} : IsValue v → kindOf v ≠ .object → kindOf v ≠ .array → Tidy v
  | array {v : Bytes} {vs : List Bytes} : IsArray v vs → (vs = [] → v = b!"[]") → (∀ x ∈ vs, Tidy x) → Tidy v
  | object {v : Bytes} {ms : List (Bytes × Bytes)} : IsObject v ms → (ms = [] → v = b!"{}") → (∀ m ∈ ms, Tidy m.2) → Tidy v

/-- `MakesTidy n a`: the modifier `n` with the argument `a` makes such values of such values. -/
inductive MakesTidy : Bytes → Bytes → Prop
  | other {n a : Bytes} : n ∉ [b!"pretty", b!"flatten", b!"join"] → MakesTidy n a
  | flatten {a x : Bytes} {b : Bool} : Means a b!"deep" x → Truth x b → MakesTidy b!"flatten" a
  | join {a x : Bytes} : Means a b!"preserve" x → Truth x false → MakesTidy b!"join" a
  | pretty {a xi xp xs xw indent pfx : Bytes} {sort : Bool} {n width : Nat} : Means a b!"indent" xi →
      (xi = [] ∧ indent = b!"  " ∨ xi ≠ [] ∧ StrVal xi indent) → Ws indent → Means a b!"prefix" xp → StrVal xp pfx → Ws pfx →
      Means a b!"sortKeys" xs → Truth xs sort → Means a b!"width" xw →
      (xw = [] ∧ width = 80 ∨ xw ≠ [] ∧ UnsignedVal xw n ∧ width = min n (2 ^ 32 - 1)) → MakesTidy b!"pretty" a

/-- Every modifier called in the path makes tidy values of tidy values. -/
def Orderly (path : Bytes) : Prop := ∀ q P n a, Asked q path → CutUp q P → CallOf P.comp P.arg n a → MakesTidy n a

/-- A path that calls none of `@flatten`, `@join` and `@pretty` with an argument. -/
def Bare (path : Bytes) : Prop := ∀ w ∈ [b!"@flatten:", b!"@join:", b!"@pretty:"], ¬ w <:+: path

end Gjson.Spec
