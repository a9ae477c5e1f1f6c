import Verif.SpecSearch
/-
Texts that may stop before their end, or go on with something that is not JSON, but in
which a path can be followed as far as it goes.
-/
namespace Gjson.Spec

/-- The value `v` ends where `q` begins: a number must not be followed by a byte that
could belong to a number. All other values show their end. -/
def EndsHere (v q : Bytes) : Prop := kindOf v = .number → ∀ c ∈ q.head?, ¬ IsDigit c ∧ c ∉ b!".eE+-"

/-- `Reached Hit t ks r`: the text `t` begins like a JSON value, and in this beginning
the path `ks` leads to the value `r`: by a key to the first member that it hits
(`Hit k kl` as in `Find`), by an index to an element. What comes after the value of the
last key, or after the element of the first index, may be anything. -/
inductive Reached (Hit : Bytes → Bytes → Prop) : Bytes → List Bytes → Bytes → Prop
  | here {v q : Bytes} : IsValue v → EndsHere v q → Reached Hit (v ++ q) [] v
  | key {k kl w1 w2 w3 t r : Bytes} {ks : List Bytes} {ms : List Member} :
      (∀ m ∈ ms, m.Wf) → (∀ m ∈ ms, IsValue m.val) → (∀ m ∈ ms, ¬ Hit k m.key) →
      Ws w1 → StrLit kl → Ws w2 → Ws w3 → Hit k kl → Reached Hit t ks r →
      Reached Hit (c! '{' :: (ms.flatMap (fun m => m.text ++ [c! ',']) ++ (w1 ++ (kl ++ (w2 ++ c! ':' :: (w3 ++ t)))))) (k :: ks) r
  | last {k w v q : Bytes} {es : List Elem} : (∀ e ∈ es, e.Wf) → (∀ e ∈ es, IsValue e.val) → Ws w →
      IndexText k es.length → es.length < 2 ^ 63 → IsValue v → EndsHere v q →
      Reached Hit (c! '[' :: (es.flatMap (fun e => e.text ++ [c! ',']) ++ (w ++ (v ++ q)))) [k] v
  | index {k w v q r : Bytes} {ks : List Bytes} {es : List Elem} : (∀ e ∈ es, e.Wf) → (∀ e ∈ es, IsValue e.val) → Ws w →
      IndexText k es.length → es.length < 2 ^ 63 → IsValue v → EndsHere v q → Find Hit v ks (.found r) →
      Reached Hit (c! '[' :: (es.flatMap (fun e => e.text ++ [c! ',']) ++ (w ++ (v ++ q)))) (k :: ks) r

end Gjson.Spec
