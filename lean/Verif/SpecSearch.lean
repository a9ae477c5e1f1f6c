import Verif.Spec
/-
What dot paths find in a document. Following the components one after the other
(`Spec.Resolves`) is what the documentation describes. The code does more: when
the value of a member with the wanted key does not have the rest of the path, it
goes on looking for the key, from the beginning of that value. This file says
what is found, in terms of the members and elements of the document only.
-/
namespace Gjson.Spec

/-- What is met while looking for a key: a member, with its key literal and its
value, or something that ends the search. -/
inductive Seen
  | member (kl v : Bytes)
  | stop

/-- The members met by reading on through the given values, one after the other:
numbers and literal names are passed over, arrays are entered and left again, a
string ends the search, so does the end of an object. -/
inductive Met : List Bytes → List Seen → Prop
  | nil : Met [] []
  | str {v : Bytes} {vs : List Bytes} : kindOf v = .string → Met (v :: vs) [.stop]
  | scalar {v : Bytes} {vs : List Bytes} {es : List Seen} : kindOf v ≠ .string → kindOf v ≠ .object → kindOf v ≠ .array →
      Met vs es → Met (v :: vs) es
  | obj {v : Bytes} {vs : List Bytes} {kvs : List (Bytes × Bytes)} : IsObject v kvs →
      Met (v :: vs) (kvs.map (fun m => .member m.1 m.2) ++ [.stop])
  | arr {v : Bytes} {vs ws : List Bytes} {es : List Seen} : IsArray v ws → Met (ws ++ vs) es → Met (v :: vs) es

/-- How a search ends: with a value, with nothing for good, or with nothing so that
an enclosing search goes on. -/
inductive Outcome
  | found (r : Bytes)
  | lost
  | miss

mutual
/-- `Find Hit v ks o`: the outcome of looking for the path `ks` in the value `v`;
`Hit k kl` says that the component `k` selects the key literal `kl`. -/
inductive Find (Hit : Bytes → Bytes → Prop) : Bytes → List Bytes → Outcome → Prop
  | scalar {v k : Bytes} {ks : List Bytes} : kindOf v ≠ .object → kindOf v ≠ .array → Find Hit v (k :: ks) .miss
  | obj {v k : Bytes} {ks : List Bytes} {kvs : List (Bytes × Bytes)} {o : Outcome} : IsObject v kvs →
      Walk Hit k ks (kvs.map fun m => .member m.1 m.2) o → Find Hit v (k :: ks) o
  | beyond {v k : Bytes} {ks vs : List Bytes} : IsArray v vs →
      (∀ n, IndexText k n → n < 2 ^ 63 → vs[n]? = none) → Find Hit v (k :: ks) .miss
  | last {v k e : Bytes} {vs : List Bytes} {n : Nat} : IsArray v vs → IndexText k n → n < 2 ^ 63 → vs[n]? = some e →
      Find Hit v [k] (.found e)
  | more {v k e r : Bytes} {ks vs : List Bytes} {n : Nat} : IsArray v vs → IndexText k n → n < 2 ^ 63 → vs[n]? = some e →
      Find Hit e ks (.found r) → Find Hit v (k :: ks) (.found r)
  | none {v k e : Bytes} {ks vs : List Bytes} {n : Nat} {o : Outcome} : IsArray v vs → IndexText k n → n < 2 ^ 63 →
      vs[n]? = some e → Find Hit e ks o → (∀ r, o ≠ .found r) → Find Hit v (k :: ks) .lost
/-- `Walk Hit k ks es o`: the outcome of looking for `k` among the entries `es` and
for the rest `ks` of the path in the value of a member with that key. -/
inductive Walk (Hit : Bytes → Bytes → Prop) : Bytes → List Bytes → List Seen → Outcome → Prop
  | nil {k : Bytes} {ks : List Bytes} : Walk Hit k ks [] .miss
  | stop {k : Bytes} {ks : List Bytes} {es : List Seen} : Walk Hit k ks (.stop :: es) .miss
  | skip {k kl v : Bytes} {ks : List Bytes} {es : List Seen} {o : Outcome} : ¬ Hit k kl → Walk Hit k ks es o →
      Walk Hit k ks (.member kl v :: es) o
  | last {k kl v : Bytes} {es : List Seen} : Hit k kl → Walk Hit k [] (.member kl v :: es) (.found v)
  | scalar {k kl v : Bytes} {ks : List Bytes} {es : List Seen} : Hit k kl → ks ≠ [] → kindOf v ≠ .object →
      kindOf v ≠ .array → Walk Hit k ks (.member kl v :: es) .lost
  | into {k kl v : Bytes} {ks : List Bytes} {es : List Seen} {o : Outcome} : Hit k kl → kindOf v = .object ∨ kindOf v = .array →
      Find Hit v ks o → o ≠ .miss → Walk Hit k ks (.member kl v :: es) o
  | again {k kl v : Bytes} {ks : List Bytes} {es es' : List Seen} {o : Outcome} : Hit k kl →
      kindOf v = .object ∨ kindOf v = .array → Find Hit v ks .miss → Met [v] es' → Walk Hit k ks (es' ++ es) o →
      Walk Hit k ks (.member kl v :: es) o
end

/-- `Inside v t`: the value `t` is `v` or part of `v`. -/
inductive Inside : Bytes → Bytes → Prop
  | here {v : Bytes} : Inside v v
  | member {v t : Bytes} {kvs : List (Bytes × Bytes)} {m : Bytes × Bytes} : IsObject v kvs → m ∈ kvs → Inside m.2 t → Inside v t
  | elem {v t e : Bytes} {vs : List Bytes} : IsArray v vs → e ∈ vs → Inside e t → Inside v t

/-- Some object in `v`, at any depth, has a member whose key satisfies `P`. -/
def HasKey (P : Bytes → Prop) (v : Bytes) : Prop := ∃ t kvs m, Inside v t ∧ IsObject t kvs ∧ m ∈ kvs ∧ P m.1

/-- In every object in `v`, a member whose key satisfies `P` is the only one and has
no such key inside its value. -/
def Unnested (P : Bytes → Prop) (v : Bytes) : Prop :=
  ∀ t before kl x after, Inside v t → IsObject t (before ++ (kl, x) :: after) → P kl →
    (∀ m ∈ after, ¬ P m.1) ∧ ¬ HasKey P x


/-- Following the components of a path one after the other: a component selects the
first member it hits in an object (`Hit k kl` as above), an index selects an
element of an array. -/
inductive Leads (Hit : Bytes → Bytes → Prop) : Bytes → List Bytes → Bytes → Prop
  | here {v : Bytes} : Leads Hit v [] v
  | key {t kl k v r : Bytes} {ks : List Bytes} {before after : List (Bytes × Bytes)} :
      IsObject t (before ++ (kl, v) :: after) → (∀ m ∈ before, ¬ Hit k m.1) → Hit k kl →
      Leads Hit v ks r → Leads Hit t (k :: ks) r
  | index {t k v r : Bytes} {ks vs : List Bytes} {n : Nat} :
      IsArray t vs → IndexText k n → n < 2 ^ 63 → vs[n]? = some v → Leads Hit v ks r → Leads Hit t (k :: ks) r

end Gjson.Spec
