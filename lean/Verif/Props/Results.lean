import Verif.Lemmas.Kept
import Verif.Props.Total
import Verif.Lemmas.Examples
/-
C41: what is found in JSON is JSON. C36: what is found in UTF-8 is UTF-8.
-/
namespace Gjson
open Spec

/-- For concrete cases: a result with a decidable property. -/
theorem found_of {r : Res Value} {p : Value → Prop} [DecidablePred p]
    (h : (match r with | .ok v => decide (p v) | .error _ => false) = true) : ∃ v, r = .ok v ∧ p v := by
  cases r with
  | ok v => exact ⟨v, rfl, by simpa using h⟩
  | error e => simp at h

/-! ### C41 -/

/-- C41, without modifiers: what `get` finds in a JSON text is a JSON value, and the
result has the kind, string, numbers and truth value that `parse` reads off its text. -/
theorem C41_value {json path : Bytes} {v : Value} (hj : JsonText json) (hp : c! '@' ∉ path) (h : get json path = .ok v)
    (he : v.exists = true) : IsValue v.json ∧ SameAsText v v.json := by
  have := ((inv_flow False).get ⟨hp, False.elim⟩ _ _ ⟨.text hj, False.elim⟩ h he).1
  exact ⟨this, (get_prov h).same (.inl this)⟩

/-- C41: the same in JSON Lines. -/
theorem C41_lines {json path : Bytes} {vs : List Bytes} {v : Value} (hj : JsonLines json vs) (hp : c! '@' ∉ path)
    (h : get json path = .ok v) (he : v.exists = true) : IsValue v.json ∧ SameAsText v v.json := by
  have := ((inv_flow False).get ⟨hp, False.elim⟩ _ _ ⟨flow_lines hj, False.elim⟩ h he).1
  exact ⟨this, (get_prov h).same (.inl this)⟩

/-- C41, with the modifiers `@this`, `@reverse`, `@ugly`, `@valid` and `@pretty`, also with
an argument that sorts keys or sets the width but does not ask for an indent or prefix: a
value, where whitespace may follow an object or array. -/
theorem C41_modifiers {json path : Bytes} {v : Value} (hj : JsonText json) (hp : Tame path) (h : get json path = .ok v)
    (he : v.exists = true) : Lead v.json ∧ SameAsText v v.json := by
  have := ((inv_tame False).get ⟨hp, False.elim⟩ _ _ (.inr ⟨hj, False.elim⟩) h he).1
  exact ⟨this, (get_prov h).same this⟩

/-- C41: the result is itself a JSON text. -/
theorem C41_jsonText {json path : Bytes} {v : Value} (hj : JsonText json) (hp : Tame path) (h : get json path = .ok v)
    (he : v.exists = true) : JsonText v.json ∧ valid v.json = .ok true := by
  obtain ⟨u, w, e, h1, h2⟩ := lead_split (C41_modifiers hj hp h he).1
  have : JsonText v.json := ⟨[], u, w, e, ws_nil, h2, h1⟩
  exact ⟨this, (C01_valid_iff_rfc8259 _).2 this⟩

/-- A text, a path with a query, a multipath and modifiers, and a result that exists. -/
example : JsonText b!"{\"a\":[{\"b\":\"x\"},{\"b\":2}]}" ∧ Tame b!"a.#(b>1)#.[b,{b}]|@reverse|@pretty:{\"sortKeys\":true,\"width\":20}" ∧
    ∃ v, get b!"{\"a\":[{\"b\":\"x\"},{\"b\":2}]}" b!"a.#(b>1)#.[b,{b}]|@reverse|@pretty:{\"sortKeys\":true,\"width\":20}" = .ok v ∧ v.exists = true :=
  ⟨(C01_valid_iff_rfc8259 _).1 (by decide +kernel), by decide, found_of (by decide +kernel)⟩

example : JsonLines b!"{\"a\":1}\n[2]" [b!"{\"a\":1}", b!"[2]"] ∧
    ∃ v, get b!"{\"a\":1}\n[2]" b!"..#.a" = .ok v ∧ v.exists = true ∧ v.json = b!"[1]" :=
  ⟨.cons (w := []) (v := b!"{\"a\":1}") (c := c! '\n') (r := b!"[2]") ws_nil (value_of_valid (by decide +kernel) (by decide)) (by decide)
    (.last (w := []) (v := b!"[2]") ws_nil (value_of_valid (by decide +kernel) (by decide))), found_of (by decide +kernel)⟩

/-- The condition on the path is needed: `@flatten` (C32), `@join` (C33) and `@pretty`
with a prefix turn JSON into something else. -/
theorem C41_needs_tame :
    (∃ v, get b!"[1,[ ],2]" b!"@flatten" = .ok v ∧ v.exists = true ∧ valid v.json = .ok false) ∧
    (∃ v, get b!"[{\"a\":1},{},{\"b\":2}]" b!"@join:{\"preserve\":true}" = .ok v ∧ v.exists = true ∧ valid v.json = .ok false) ∧
    (∃ v, get b!"[{\"a\":1}]" b!"@pretty:{\"indent\":\"x\"}" = .ok v ∧ v.exists = true ∧ valid v.json = .ok false) :=
  ⟨found_of (by decide +kernel), found_of (by decide +kernel),
    found_of (by decide +kernel)⟩

/-! ### C36 -/

/-- C36 for JSON texts, and paths without `@flatten`, `@join` and text to insert for `@pretty`:
the text and the string of the result are UTF-8. Missing: those modifiers, and texts that
are not JSON, where the claim is false (`C36_false`). -/
theorem C36_utf8_partial {json path : Bytes} {v : Value} (hj : JsonText json) (hu : IsUtf8 json) (hp : Tame path) (hpu : IsUtf8 path)
    (h : get json path = .ok v) : IsUtf8 v.json ∧ ∀ s, v.str = .ok s → IsUtf8 s := by
  have hg := (inv_tame True).get ⟨hp, fun _ => hpu⟩ _ _ (.inr ⟨hj, fun _ => hu⟩) h
  have hjs : IsUtf8 v.json := by
    cases he : v.exists with
    | true => exact (hg he).2 trivial
    | false =>
      have : v.json = [] := by unfold Value.exists at he; simpa using he
      rw [this]; exact .nil
  exact ⟨hjs, fun s hs => str_utf8 (get_prov h) (fun he => (hg he).1) hjs hs⟩

/-- C36 for JSON Lines and paths without modifiers. -/
theorem C36_lines_partial {json path : Bytes} {vs : List Bytes} {v : Value} (hj : JsonLines json vs) (hu : IsUtf8 json)
    (hp : c! '@' ∉ path) (hpu : IsUtf8 path) (h : get json path = .ok v) :
    IsUtf8 v.json ∧ ∀ s, v.str = .ok s → IsUtf8 s := by
  have hg := (inv_flow True).get ⟨hp, fun _ => hpu⟩ _ _ ⟨flow_lines hj, fun _ => hu⟩ h
  have hjs : IsUtf8 v.json := by
    cases he : v.exists with
    | true => exact (hg he).2 trivial
    | false =>
      have : v.json = [] := by unfold Value.exists at he; simpa using he
      rw [this]; exact .nil
  exact ⟨hjs, fun s hs => str_utf8 (get_prov h) (fun he => .inl (hg he).1) hjs hs⟩

/-- And for a result that exists the string can be read. -/
theorem C36_str_partial {json path : Bytes} {v : Value} (hj : JsonText json) (hu : IsUtf8 json) (hp : Tame path) (hpu : IsUtf8 path)
    (h : get json path = .ok v) (he : v.exists = true) : ∃ s, v.str = .ok s ∧ IsUtf8 s := by
  obtain ⟨s, hs⟩ := (C05_get_partial json path v h (.inl he)).str
  exact ⟨s, hs, (C36_utf8_partial hj hu hp hpu h).2 s hs⟩

example : JsonText b!"{\"ключ\":\"é\\u00e9\"}" ∧ IsUtf8 b!"{\"ключ\":\"é\\u00e9\"}" ∧ IsUtf8 b!"{ключ,\"ñ\":ключ}" ∧
    Tame b!"{ключ,\"ñ\":ключ}" ∧ ∃ v, get b!"{\"ключ\":\"é\\u00e9\"}" b!"{ключ,\"ñ\":ключ}" = .ok v ∧ v.exists = true :=
  ⟨(C01_valid_iff_rfc8259 _).1 (by decide +kernel), by decide +kernel, by decide +kernel, by decide, found_of (by decide +kernel)⟩

/-- A text inside a UTF-8 text that starts and ends with an ASCII byte. -/
theorem edged_utf8 {j w : Bytes} (h : IsUtf8 j) (hw : Edged w) (hi : w <:+: j) : IsUtf8 w := by
  by_cases hn : w = []
  · rw [hn]; exact .nil
  obtain ⟨x, y, rfl⟩ := hi
  have h1 := (h.split (.inl (by
    rw [List.getLast?_append]
    intro c hc
    cases hl : w.getLast? with
    | none => exact absurd (List.getLast?_eq_none_iff.1 hl) hn
    | some d => rw [hl] at hc; simp at hc; subst hc; exact hw.2 d (by rw [hl]; simp)))).1
  exact (h1.split (.inr hw.1)).2

/-- The text of the value is UTF-8 unless it is taken for a literal name; so is the string,
unless it is a literal in which a `\u` escape cuts a character. -/
def Utf8Unless (v : Value) : Prop := (v.kind ≠ .true → v.kind ≠ .false → v.kind ≠ .null → IsUtf8 v.json) ∧
  ∀ s, v.str = .ok s → (v.kind = .string → ∀ b, v.json = c! '"' :: (b ++ [c! '"']) → ¬ CutsChar b) → IsUtf8 s

/-- C36 for every UTF-8 text, JSON or not, and paths of keys, patterns and indexes: the text
of the result is UTF-8 unless the kind is True, False or Null, that is, unless it is taken
for a literal name. So is the string, unless it is a string literal in which a `\u` escape
cuts a character. Missing: those two cases, where it is false (`C36_false`, `C37_exact`),
and other paths. -/
theorem C36_any_partial {text : Bytes} {ks : List Bytes} {v : Value} (hu : IsUtf8 text) (hk : ∀ k ∈ ks, Selector k) (hne : ks ≠ [])
    (h : get text (dotPath ks) = .ok v) :
    Utf8Unless v := by
  obtain ⟨h1, _, h2, h3⟩ := get_piece (Nat.le_refl _) (fun k h => Selector.ord (hk k h)) hne h
  have hj : v.kind ≠ .true → v.kind ≠ .false → v.kind ≠ .null → IsUtf8 v.json := by
    intro k1 k2 k3
    cases he : v.exists with
    | false =>
      have : v.json = [] := by unfold Value.exists at he; simpa using he
      rw [this]; exact .nil
    | true =>
      have hs : v.json = v.slice := by
        unfold Value.json
        rw [h2 he]
        cases v.slice <;> simp
      rcases h3 with h3 | h3 | h3 | h3
      · exact edged_utf8 hu (hs ▸ h3) h1
      · exact absurd h3 k1
      · exact absurd h3 k2
      · exact absurd h3 k3
  refine ⟨hj, fun s hs hc => ?_⟩
  refine str_utf8_any (get_prov h) hj (fun hk => ?_) hc hs
  cases he : v.exists with
  | false =>
    have : v.json = [] := by unfold Value.exists at he; simpa using he
    rw [this]; exact edged_nil
  | true =>
    have hs : v.json = v.slice := by
      unfold Value.json
      rw [h2 he]
      cases v.slice <;> simp
    rcases h3 with h3 | h3 | h3 | h3
    · exact hs ▸ h3
    all_goals rw [hk] at h3; exact absurd h3 (by decide)

/-- The same for the keys and values that `each` visits in an array or object of any UTF-8
text. -/
theorem C36_each_partial (v : Value) (hu : IsUtf8 v.json) (hv : v.kind = .object ∨ v.kind = .array) : ∃ pairs : List (Value × Value),
    (∀ p ∈ pairs, Utf8Unless p.1 ∧ Utf8Unless p.2) ∧
    ∀ (σ : Type) (f : σ → Value → Value → Res (σ × Bool)) (st : σ),
      v.each f st = visit (fun st p => f st p.1 p.2) st pairs := by
  by_cases he : v.exists = true
  · refine ⟨eachPairs v.kind (eachToks 0 false v.json), ?_, fun σ f st => by rw [each_run he hv, runFold_visit]⟩
    have hg : ∀ e ∈ eachToks 0 false v.json, Utf8Unless e := by
      intro e he
      have hp := eachToks_piece _ _ _ e he
      have hj : e.kind ≠ .true → e.kind ≠ .false → e.kind ≠ .null → IsUtf8 e.json := by
        intro k1 k2 k3
        rcases hp.2.2 with h3 | h3 | h3 | h3
        · exact edged_utf8 hu (hp.json ▸ h3) (hp.json ▸ hp.2.1)
        · exact absurd h3 k1
        · exact absurd h3 k2
        · exact absurd h3 k3
      refine ⟨hj, fun s hs hc => str_utf8_any (eachToks_prov _ _ _ e he) hj (fun hk => ?_) hc hs⟩
      rcases hp.2.2 with h3 | h3 | h3 | h3
      · exact hp.json ▸ h3
      all_goals rw [hk] at h3; exact absurd h3 (by decide)
    intro p hp
    unfold eachPairs at hp
    split at hp
    · exact ⟨hg _ (pairUp_mem p hp).1, hg _ (pairUp_mem p hp).2⟩
    · obtain ⟨e, h1, rfl⟩ := List.mem_map.1 hp
      refine ⟨⟨fun _ _ _ => ?_, fun s hs _ => ?_⟩, hg e h1⟩
      · exact .nil
      · rw [show Value.str (Value.default, e).1 = .ok [] from (by decide +kernel : Value.default.str = .ok [])] at hs
        cases hs; exact .nil
  · refine ⟨[], by simp, fun σ f st => ?_⟩
    unfold Value.each; rw [if_pos (by simpa using he)]; rfl

example : IsUtf8 b!"{\"é\":[1,\"\\q\\u00é\" é" ∧ Selector b!"é" ∧ Selector b!"1" ∧
    (get b!"{\"é\":[1,\"\\q\\u00é\" é" b!"é.1").toOption.map Value.json = some b!"\"\\q\\u00é\"" :=
  ⟨by decide +kernel, PlainKey.selector (by decide +kernel) (by decide), PlainKey.selector (by decide) (by decide), by decide +kernel⟩

/-- C36 is false as stated: a text that starts with `t`, `f` or `n` is taken for a literal
name and cut after four or five bytes, without looking at them. -/
theorem C36_false : IsUtf8 b!"[taaé]" ∧ IsUtf8 b!"0" ∧ ∃ v, get b!"[taaé]" b!"0" = .ok v ∧ ¬ IsUtf8 v.json :=
  ⟨by decide +kernel, by decide +kernel, found_of (by decide +kernel)⟩

/-- It is false even for JSON texts, if `@pretty` may insert text. -/
theorem C36_pretty_false : JsonText b!"[[{\"é\":1}]]" ∧ IsUtf8 b!"[[{\"é\":1}]]" ∧
    ∃ path, IsUtf8 path ∧ ∃ v, get b!"[[{\"é\":1}]]" path = .ok v ∧ ¬ IsUtf8 v.json :=
  ⟨(C01_valid_iff_rfc8259 _).1 (by decide +kernel), by decide +kernel,
    b!"@pretty:{\"indent\":\"taaé\"}|0", by decide +kernel, found_of (by decide +kernel)⟩

end Gjson
