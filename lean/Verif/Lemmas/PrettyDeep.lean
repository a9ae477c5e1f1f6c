import Verif.Lemmas.PrettyAll
/-
A document that meets the depth limit of `pretty`.
-/
namespace Gjson
open Spec

/-- An object with the keys `b` and `a` around `n` nested arrays. -/
def deepText (n : Nat) : Bytes := b!"{\"b\":1,\"a\":" ++ (List.replicate n (c! '[') ++ (List.replicate n (c! ']') ++ b!"}"))

/-- The document of `n` nested arrays. -/
def deepDoc : Nat → Doc
  | 0 => .arr []
  | n + 1 => .arr [deepDoc n]

theorem deepDoc_denotes : ∀ n, Denotes (List.replicate (n + 1) (c! '[') ++ List.replicate (n + 1) (c! ']')) (deepDoc n)
  | 0 => by simpa [deepDoc] using Denotes.arrEmpty ws_nil
  | n + 1 => by
    have := Denotes.arr (es := [(⟨[], _, []⟩, deepDoc n)]) (by simp) (by simp [Elem.Wf, ws_nil]) (by simpa using deepDoc_denotes n)
    have e : List.replicate (n + 2) (c! ']') = List.replicate (n + 1) (c! ']') ++ [c! ']'] := by rw [List.replicate_succ']
    rw [e, List.replicate_succ]
    simpa [elemsText, Elem.text, deepDoc] using this

theorem strLit_a : StrLit b!"\"a\"" := ⟨b!"a", .plain (by decide) (by decide) (by decide) .nil, by decide⟩
theorem strLit_b : StrLit b!"\"b\"" := ⟨b!"b", .plain (by decide) (by decide) (by decide) .nil, by decide⟩
theorem denotes_one : Denotes b!"1" (.leaf b!"1") :=
  .leaf (.num ⟨[], b!"1", [], [], rfl, .inl rfl, .inr ⟨_, _, rfl, by decide, by decide, by simp⟩, .inl rfl, .inl rfl⟩) (by decide) (by decide)

theorem deepDoc_height : ∀ n, (deepDoc n).height = n + 1
  | 0 => by simp [deepDoc, Doc.height, elemHeight]
  | n + 1 => by simp [deepDoc, Doc.height, elemHeight, deepDoc_height n]

end Gjson
