import Verif.Spec
/-
Places in a JSON text.
-/
namespace Gjson.Spec

/-- `Site D t ks a v b`: the value text `t` is `a`, `v`, `b` one after the other, and
the components `ks` lead to this occurrence of the value `v`. A key leads to the first
member with that key, an index to that element; `D kl k` says that the key literal
`kl` denotes `k`. The premise with `y` says what stands around the value of the
member, or around the element. -/
inductive Site (D : Bytes → Bytes → Prop) : Bytes → List Bytes → Bytes → Bytes → Bytes → Prop
  | here {v : Bytes} : Site D v [] [] v []
  | key {k v a b a' b' : Bytes} {ks : List Bytes} {before after : List Member} {m : Member} :
      (∀ x ∈ before ++ m :: after, x.Wf ∧ IsValue x.val) → (∀ x ∈ before, ∃ s, D x.key s ∧ s ≠ k) → D m.key k →
      (∀ y, c! '{' :: (membersText (before ++ { m with val := y } :: after) ++ [c! '}']) = a ++ (y ++ b)) →
      Site D m.val ks a' v b' →
      Site D (c! '{' :: (membersText (before ++ m :: after) ++ [c! '}'])) (k :: ks) (a ++ a') v (b' ++ b)
  | index {k v a b a' b' : Bytes} {ks : List Bytes} {before after : List Elem} {e : Elem} :
      (∀ x ∈ before ++ e :: after, x.Wf ∧ IsValue x.val) → IndexText k before.length → before.length < 2 ^ 63 →
      (∀ y, c! '[' :: (elemsText (before ++ { e with val := y } :: after) ++ [c! ']']) = a ++ (y ++ b)) →
      Site D e.val ks a' v b' →
      Site D (c! '[' :: (elemsText (before ++ e :: after) ++ [c! ']'])) (k :: ks) (a ++ a') v (b' ++ b)

/-- The two lists of components part: after a common beginning comes a component in
which they differ, also when both are read as indexes (`1` and `01` do not differ). -/
def Apart : List Bytes → List Bytes → Prop
  | k :: ks, p :: ps => (k = p ∧ Apart ks ps) ∨ (k ≠ p ∧ ∀ n, ¬ (IndexText k n ∧ IndexText p n))
  | _, _ => False

end Gjson.Spec
