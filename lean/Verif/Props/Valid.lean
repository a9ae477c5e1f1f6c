import Verif.Lemmas.Grammar
/-
C01 and the `valid` half of C02.
-/
namespace Gjson
open Spec

/-- C01: `valid` returns `true` exactly on the JSON texts of RFC 8259. -/
theorem C01_valid_iff_rfc8259 (json : Bytes) : valid json = .ok true ↔ JsonText json := by
  rw [valid_eq_pText]
  simp [pText_iff]

/-- C01: and `false` on all other texts. -/
theorem C01_valid_false_iff (json : Bytes) : valid json = .ok false ↔ ¬ JsonText json := by
  rw [valid_eq_pText, ← pText_iff]
  simp

/-- C02, part `valid`: it always returns. -/
theorem C02_valid_total (json : Bytes) : ∃ b, valid json = .ok b :=
  ⟨_, valid_eq_pText json⟩

/-- A text with every construct is in the grammar, so C01 speaks about it. -/
example : JsonText b!" {\"a\" : [ 1, -2.5e+3, \"x\\n\\u00e9\" , null] , \"b\":{}} \n" :=
  (C01_valid_iff_rfc8259 _).1 (by decide +kernel)

/-- Leading zeros, trailing commas and lone minus are outside the grammar. -/
example : ¬ JsonText b!"[01]" ∧ ¬ JsonText b!"[1,]" ∧ ¬ JsonText b!"-" ∧ ¬ JsonText b!"{\"a\":1,}" :=
  ⟨(C01_valid_false_iff _).1 (by decide +kernel), (C01_valid_false_iff _).1 (by decide +kernel),
    (C01_valid_false_iff _).1 (by decide +kernel), (C01_valid_false_iff _).1 (by decide +kernel)⟩

end Gjson
