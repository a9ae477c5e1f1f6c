import Verif.Lemmas.Void
import Verif.Lemmas.Closed
import Verif.Props.Lookup
/-
C62: a value is its text. The values are those a caller can hold (`Handed`, C12), from
any text, JSON or not.
-/
namespace Gjson
open Spec

/-- C62: a value that exists is what `parse` makes of its text. -/
theorem C62_text {v : Value} (h : Handed v) (he : v.exists = true) : ∃ w, parse v.json = .ok w ∧ SameValue v w :=
  ⟨_, parse_eq _, h.ownText (exists_json.1 he)⟩

/-- C62: the first byte of its text says of what kind it is. -/
theorem C62_kind {v : Value} (h : Handed v) (he : v.exists = true) : v.kind = kindOf v.json := by
  have hs := h.ownText (exists_json.1 he)
  have hj := hs.json
  rw [hs.kind, pParse_kindOf _ _ (by rw [← hj]; exact exists_json.1 he), ← hj]

/-- C62: the text begins as a JSON value does. -/
theorem C62_first {v : Value} (h : Handed v) (he : v.exists = true) :
    ∃ c r, v.json = c :: r ∧ (c ∈ b!"\"{[tfn-" ∨ IsDigit c) := by
  have hn := exists_json.1 he
  have hj := (h.ownText hn).json
  obtain ⟨c, r, e⟩ := List.exists_cons_of_ne_nil hn
  refine ⟨c, r, e, ?_⟩
  rw [e] at hj
  by_cases hc : c ≤ c! ' '
  · rw [pParse, if_pos hc] at hj
    have := (pParse_infix 1 r).length_le
    rw [← hj] at this
    simp at this
  · unfold pParse at hj
    rw [if_neg hc] at hj
    simp only [List.mem_cons, List.not_mem_nil, or_false]
    unfold IsDigit
    have nil : Value.default.json = [] := rfl
    split at hj
    · grind
    split at hj
    · grind
    split at hj
    · grind
    · rw [nil] at hj; cases hj

/-- C62: two values with the same text cannot be told apart, however each was obtained:
not by reading, comparing or searching them, and not by enumerating them. -/
theorem C62_same {v u : Value} (hv : Handed v) (hu : Handed u) (he : v.exists = true) (hj : v.json = u.json) :
    SameValue v u ∧ (∀ w, v.cmp w = u.cmp w ∧ w.cmp v = w.cmp u) ∧ (∀ p, SameRes (v.get p) (u.get p)) ∧ v.array = u.array ∧
    (v.kind = .object ∨ v.kind = .array → ∀ (σ : Type) (f : σ → Value → Value → Res (σ × Bool)) (s : σ), v.each f s = u.each f s) := by
  have hs : SameValue v u := by
    have h1 := hv.ownText (exists_json.1 he)
    have h2 := hu.ownText (by rw [← hj]; exact exists_json.1 he)
    rw [hj] at h1
    exact h1.trans h2.symm
  have hp : ∀ p, SameRes (v.get p) (u.get p) := fun p => by
    have h1 := C12_value_get hv p
    rw [hj] at h1
    exact h1.trans (C12_value_get hu p).symm
  have heach : v.kind = .object ∨ v.kind = .array → ∀ (σ : Type) (f : σ → Value → Value → Res (σ × Bool)) (s : σ), v.each f s = u.each f s := by
    intro hk σ f s
    obtain ⟨c, q, e⟩ := List.exists_cons_of_ne_nil (exists_json.1 he)
    rw [each_eq e hk, each_eq (hj ▸ e) (hs.kind ▸ hk), hs.kind]
  refine ⟨hs, fun w => ⟨?_, ?_⟩, hp, ?_, heach⟩
  · unfold Value.cmp; rw [hs.kind, hs.str, hs.f64, hs.json]
  · unfold Value.cmp; rw [hs.kind, hs.str, hs.f64, hs.json]
  unfold Value.array
  rw [← hs.kind]
  split
  · rename_i hk; exact heach (.inr hk) _ _ _
  · rfl

/-- C62: a value that does not exist is of kind null or string; so an array or object
always has a text. -/
theorem C62_missing {v : Value} (h : Handed v) (he : v.exists = false) : v.kind = .null ∨ v.kind = .string :=
  h.void (Classical.byContradiction fun hn => by rw [exists_json.2 hn] at he; cases he)

/-- Both occur: a string that is not closed, and a key that is not there. -/
example : (parse b!" \"abc" >>= fun v => .ok (v.json, v.kind)) = .ok ([], .string) ∧
    (get b!"{\"a\":[1" b!"a" >>= fun v => .ok (v.json, v.kind)) = .ok ([], .null) := by decide +kernel

/-- Values from a text that is not JSON, and from a path with everything in it. -/
example : (get b!"[truth {\"a\" 1e-+, \"b\":[}" b!"0" >>= fun v => .ok (v.json, v.kind)) = .ok (b!"trut", .true) ∧
    (parse b!"trut" >>= fun v => .ok (v.json, v.kind)) = .ok (b!"trut", .true) ∧
    (get b!"{\"v\":[{\"a\":\"x\\ny\"},{\"a\":2}]}" b!"v.#.a|@reverse|1" >>= fun v => .ok (v.json, v.kind)) = .ok (b!"\"x\\ny\"", .string) := by
  decide +kernel

end Gjson
