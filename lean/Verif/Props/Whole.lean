import Verif.Lemmas.WholeTotal
import Verif.Props.OwnText
import Verif.Lemmas.Examples
/-
C71: what every path finds, as one relation between texts.
-/
namespace Gjson
open Spec

/-- C71: `get` obeys the rules, for every document text and every path. -/
theorem C71_sound {doc path r : Bytes} (h : Obtains doc path r) :
    ∃ v, get doc path = .ok v ∧ v.json = r ∧ v.kind = kindOf r ∧ v.exists = decide (r ≠ []) := by
  obtain ⟨n, h⟩ := h
  obtain ⟨v, h1, h2⟩ := obtainsAt_ok n _ _ _ h
  refine ⟨v, h1, h2.1, ?_, fits_exists h2⟩
  by_cases hr : r = []
  · rw [(h2.2 hr).kind, hr]
    decide
  · rw [C62_kind (.get h1) (by rw [fits_exists h2]; simpa using hr), h2.1]

/-- C71: they give no more than one result. -/
theorem C71_one {doc path r r' : Bytes} (h : Obtains doc path r) (h' : Obtains doc path r') : r = r' := by
  obtain ⟨v, h1, h2, _⟩ := C71_sound h
  obtain ⟨v', h1', h2', _⟩ := C71_sound h'
  rw [h1] at h1'
  cases h1'
  rw [← h2, h2']

theorem nice_lead {T : Bytes → Prop} (hT : Stock T) {r : Bytes} (h : Nice T r) : r = [] ∨ Lead r := by
  rcases h with h | ⟨v, w, h1, h2, h3⟩
  · exact .inl h
  · obtain ⟨d, hd⟩ := denotes_of_value (hT.value h2)
    exact sizedVal_lead (n := d.height) (.inr ⟨v, w, h1, ⟨d, hd, Nat.le_refl _⟩, h3⟩)

theorem niceDoc_json {doc : Bytes} (h : JsonText doc) : NiceDoc IsValue doc := by
  obtain ⟨w1, v, w2, e, h1, h2, h3⟩ := h
  exact .inr ⟨v, ⟨w1, w2, h1, h2, e⟩, h3⟩

/-- C71: for every JSON text and every path that is `Mild` they give a result, a JSON value or
nothing. A path of length `n` needs no more than `n + 1` levels. -/
theorem C71_total {doc path : Bytes} (hd : JsonText doc) (hp : Mild path) :
    ∃ r, ObtainsAt (path.length + 1) doc path r ∧ (r = [] ∨ Lead r) := by
  obtain ⟨r, h1, h2⟩ := obtainsAt_total stock_value _ path (Nat.lt_succ_self _) (harmless_tamed (mild_harmless hp)) doc (niceDoc_json hd)
  exact ⟨r, h1, nice_lead stock_value h2⟩

/-- C71: also in JSON Lines. -/
theorem C71_total_lines {doc path : Bytes} {vs : List Bytes} (hd : JsonLines doc vs) (hp : Mild (b!".." ++ path)) :
    ∃ r, ObtainsAt (path.length + 3) doc (b!".." ++ path) r ∧ (r = [] ∨ Lead r) := by
  obtain ⟨r, h1, h2⟩ := obtainsAt_lines stock_value (harmless_tamed (mild_harmless hp)) hd (lines_values hd)
  exact ⟨r, h1, nice_lead stock_value h2⟩

theorem exact_of {doc path : Bytes} (h : ∃ r, Obtains doc path r) (r : Bytes) :
    (∃ v, get doc path = .ok v ∧ v.json = r) ↔ Obtains doc path r := by
  constructor
  · rintro ⟨v, h1, h2⟩
    obtain ⟨r', h⟩ := h
    obtain ⟨v', h3, h4, _⟩ := C71_sound h
    rw [h1] at h3
    cases h3
    rw [← h2, h4]
    exact h
  · intro h
    obtain ⟨v, h1, h2, _⟩ := C71_sound h
    exact ⟨v, h1, h2⟩

/-- C71: so they say exactly what `get` returns. -/
theorem C71_exact {doc path : Bytes} (hd : JsonText doc) (hp : Mild path) (r : Bytes) :
    (∃ v, get doc path = .ok v ∧ v.json = r) ↔ Obtains doc path r :=
  exact_of ((C71_total hd hp).imp fun _ h => ⟨_, h.1⟩) r

/-- C71: the same for JSON Lines. -/
theorem C71_exact_lines {doc path : Bytes} {vs : List Bytes} (hd : JsonLines doc vs) (hp : Mild (b!".." ++ path)) (r : Bytes) :
    (∃ v, get doc (b!".." ++ path) = .ok v ∧ v.json = r) ↔ Obtains doc (b!".." ++ path) r :=
  exact_of ((C71_total_lines hd hp).imp fun _ h => ⟨_, h.1⟩) r

/-! ### Concrete cases -/

theorem ok_of_json {x : Res Value} {r : Bytes} (h : (x >>= fun v => .ok v.json) = .ok r) : ∃ v, x = .ok v ∧ v.json = r := by
  obtain ⟨v, h1, h2⟩ := bind_eq_ok.1 h
  exact ⟨v, h1, Except.ok.inj h2⟩

/-- A query with a path on the left, a multipath with a modifier in it, and a path that is
malformed in the middle. -/
example : Obtains b!" {\"a\":[{\"b\":1},{\"b\":[2,3],\"c\":null}]}" b!"a.#(b.#>1).{y:b.@reverse,x:c,d}|y" b!"[3,2]" :=
  (C71_exact ((C01_valid_iff_rfc8259 _).1 (by decide +kernel)) (by unfold Mild; decide +kernel) _).1 (ok_of_json (by decide +kernel))

/-- Brackets without partners, `#` as a key. -/
example : Obtains b!"{\"#\":{\"a]\":[true]}}" b!"#.a].0" b!"true" ∧ Obtains b!"{\"#\":{\"a]\":[true]}}" b!"#(.a].0" [] :=
  ⟨(C71_exact ((C01_valid_iff_rfc8259 _).1 (by decide +kernel)) (by unfold Mild; decide +kernel) _).1 (ok_of_json (by decide +kernel)),
   (C71_exact ((C01_valid_iff_rfc8259 _).1 (by decide +kernel)) (by unfold Mild; decide +kernel) _).1 (ok_of_json (by decide +kernel))⟩

/-- The rules also apply to paths that are not `Mild`. -/
example : Obtains b!"[1,[2]]" b!"@flatten" b!"[1,2]" := by
  have ha : IsArray b!"[1,[2]]" [b!"1", b!"[2]"] := C35_array_isArray (vs := [b!"1", b!"[2]"]) (by
    intro v hv
    simp only [List.mem_cons, List.not_mem_nil, or_false] at hv
    rcases hv with rfl | rfl <;> exact value_of_valid (by decide +kernel) (by decide))
  exact ⟨1, .call (P := ⟨b!"@flatten", false, false, 0, 0, []⟩) (out := b!"[1,2]") ((C64_exact b!"@flatten" ⟨b!"@flatten", false, false, 0, 0, []⟩).1 (by decide +kernel)) .bare
    (.flatten ha (padded_self _) (means_key_nil (PlainKey.selector ⟨by decide, by decide⟩ (by decide)))
      (.num (n := 0) (by decide) (by decide) (.other (.inl rfl))))
    (.cont (w := []) ws_nil (.inr (by decide))) .done⟩


end Gjson
