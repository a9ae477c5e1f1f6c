import Verif.SpecCut
import Verif.SpecSearch
/-
What is found in a document with any sequence of bytes as a path, up to the point where the
search ends and the rest of the path is applied to what was found. Like SpecSearch.lean, but
for components of every kind, and with the path as it is cut in SpecCut.lean.
-/
namespace Gjson.Spec

/-- A text that was found, the separator behind the part of the path that is used up (0 at the
end of the path), and the rest of the path. -/
structure Landing where
  text : Bytes
  sep : UInt8
  rest : Bytes

/-- What the search depends on besides the document and the path. -/
structure Asks where
  /-- What a path finds in an element of an array, if anything. -/
  ask : Bytes → Bytes → Option Bytes → Prop
  /-- Left side, operator and right side of a query, an element, and whether the query holds. -/
  holds : Bytes → Bytes → Bytes → Bytes → Bool → Prop
  /-- A component, whether it has a backslash or a wildcard, and a key literal it selects. -/
  hit : Bytes → Bool → Bytes → Prop

/-- What a component selects in an array with the given elements. -/
inductive Picks (A : Asks) (vs : List Bytes) : Parts → Option Landing → Prop
  | index {k rest v : Bytes} {e w : Bool} {sep : UInt8} {m n : Nat} : IndexText k n → n < 2 ^ 63 → vs[n]? = some v →
      Picks A vs ⟨k, e, w, sep, m, rest⟩ (some ⟨v, sep, rest⟩)
  | beyond {k rest : Bytes} {e w : Bool} {sep : UInt8} {m : Nat} : (∀ c ∈ k.head?, c ≠ c! '#') →
      (∀ n, IndexText k n → n < 2 ^ 63 → vs[n]? = none) → Picks A vs ⟨k, e, w, sep, m, rest⟩ none
  | count {rest : Bytes} {sep : UInt8} : sep ≠ c! '.' → Picks A vs ⟨b!"#", false, false, sep, 0, rest⟩ (some ⟨numeral vs.length, sep, rest⟩)
  | map {rest g r : Bytes} {sep : UInt8} {os : List (Option Bytes)} : GroupOf rest g sep r → Aligned (fun e o => A.ask e g o) vs os →
      Picks A vs ⟨b!"#", false, false, c! '.', 0, rest⟩ (some ⟨arrayText (os.filterMap id), sep, r⟩)
  | first {q lh op rh rest : Bytes} {sep : UInt8} {test : Bytes → Bool} : QueryCut (b!"#(" ++ q ++ b!")") lh op rh →
      (∀ v ∈ vs, A.holds lh op rh v (test v)) →
      Picks A vs ⟨b!"#(" ++ q ++ b!")", false, false, sep, 0, rest⟩ ((vs.find? test).map fun v => ⟨v, sep, rest⟩)
  | all {q lh op rh rest : Bytes} {sep : UInt8} {test : Bytes → Bool} : QueryCut (b!"#(" ++ q ++ b!")#") lh op rh →
      (∀ v ∈ vs, A.holds lh op rh v (test v)) → sep ≠ c! '.' →
      Picks A vs ⟨b!"#(" ++ q ++ b!")#", false, false, sep, 0, rest⟩ (some ⟨arrayText (vs.filter test), sep, rest⟩)
  | allMap {q lh op rh rest g r : Bytes} {sep : UInt8} {test : Bytes → Bool} {os : List (Option Bytes)} :
      QueryCut (b!"#(" ++ q ++ b!")#") lh op rh → (∀ v ∈ vs, A.holds lh op rh v (test v)) → GroupOf rest g sep r →
      Aligned (fun e o => A.ask e g o) (vs.filter test) os →
      Picks A vs ⟨b!"#(" ++ q ++ b!")#", false, false, c! '.', 0, rest⟩ (some ⟨arrayText (os.filterMap id), sep, r⟩)

/-- A modifier or a multipath: it takes no part in the search. -/
def Computes (k : Bytes) : Prop := ∃ c ∈ k.head?, c ∈ b!"@[{"

mutual
/-- `Seek A v P o`: the outcome of looking for a path with the parts `P` in the value `v`. -/
inductive Seek (A : Asks) : Bytes → Parts → Option Landing → Prop
  | scalar {v : Bytes} {P : Parts} : kindOf v ≠ .object → kindOf v ≠ .array → Seek A v P none
  | obj {v : Bytes} {P : Parts} {kvs : List (Bytes × Bytes)} {o : Option Landing} : IsObject v kvs →
      Among A P (kvs.map fun m => .member m.1 m.2) o → Seek A v P o
  | arr {v : Bytes} {P : Parts} {vs : List Bytes} {o : Option Landing} : IsArray v vs → Picks A vs P o → Seek A v P o
/-- `Among A P es o`: the same among the entries `es`: the first member with a key that the
component selects is taken. If a dot follows and the value is an object or array, the search
goes on inside; if that finds nothing, reading goes on at the beginning of that value. -/
inductive Among (A : Asks) : Parts → List Seen → Option Landing → Prop
  | nil {P : Parts} : Among A P [] none
  | stop {P : Parts} {es : List Seen} : Among A P (.stop :: es) none
  | skip {P : Parts} {kl v : Bytes} {es : List Seen} {o : Option Landing} : ¬ A.hit P.comp (P.esc || P.wild) kl → Among A P es o →
      Among A P (.member kl v :: es) o
  | scalar {P : Parts} {kl v : Bytes} {es : List Seen} : A.hit P.comp (P.esc || P.wild) kl → kindOf v ≠ .object → kindOf v ≠ .array →
      Among A P (.member kl v :: es) (some ⟨v, P.sep, P.rest⟩)
  | last {P : Parts} {kl v : Bytes} {es : List Seen} : A.hit P.comp (P.esc || P.wild) kl → P.sep ≠ c! '.' →
      Among A P (.member kl v :: es) (some ⟨v, P.sep, P.rest⟩)
  | computes {P P' : Parts} {kl v : Bytes} {es : List Seen} : A.hit P.comp (P.esc || P.wild) kl → CutUp P.rest P' → Computes P'.comp →
      Among A P (.member kl v :: es) (some ⟨v, P.sep, P.rest⟩)
  | into {P P' : Parts} {kl v : Bytes} {es : List Seen} {r : Landing} : A.hit P.comp (P.esc || P.wild) kl → P.sep = c! '.' →
      kindOf v = .object ∨ kindOf v = .array → CutUp P.rest P' → ¬ Computes P'.comp → Seek A v P' (some r) →
      Among A P (.member kl v :: es) (some r)
  | again {P P' : Parts} {kl v : Bytes} {es es' : List Seen} {o : Option Landing} : A.hit P.comp (P.esc || P.wild) kl → P.sep = c! '.' →
      kindOf v = .object ∨ kindOf v = .array → CutUp P.rest P' → ¬ Computes P'.comp → Seek A v P' none → Met [v] es' →
      Among A P (es' ++ es) o → Among A P (.member kl v :: es) o
end

end Gjson.Spec
