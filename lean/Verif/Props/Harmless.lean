import Verif.Lemmas.LaidTidy
import Verif.Props.Whole
/-
C72: what every path finds whose modifiers make JSON of JSON.
-/
namespace Gjson
open Spec

/-- C72: for every JSON text and every path whose modifiers are `Harmless` they give a result, a
JSON value or nothing. A path of length `n` needs no more than `n + 1` levels. -/
theorem C72_total_harmless {doc path : Bytes} (hd : JsonText doc) (hp : Harmless path) :
    ∃ r, ObtainsAt (path.length + 1) doc path r ∧ (r = [] ∨ Lead r) := by
  obtain ⟨r, h1, h2⟩ := obtainsAt_total stock_value _ path (Nat.lt_succ_self _) (harmless_tamed hp) doc (niceDoc_json hd)
  exact ⟨r, h1, nice_lead stock_value h2⟩

/-- C72: also in JSON Lines. -/
theorem C72_total_harmless_lines {doc path : Bytes} {vs : List Bytes} (hd : JsonLines doc vs) (hp : Harmless (b!".." ++ path)) :
    ∃ r, ObtainsAt (path.length + 3) doc (b!".." ++ path) r ∧ (r = [] ∨ Lead r) := by
  obtain ⟨r, h1, h2⟩ := obtainsAt_lines stock_value (harmless_tamed hp) hd (lines_values hd)
  exact ⟨r, h1, nice_lead stock_value h2⟩

/-- C72: for every JSON text with nothing between the brackets of empty arrays and objects, and
every `Orderly` path, the result is of this kind, too. -/
theorem C72_total_orderly {v doc path : Bytes} (hv : Tidy v) (hd : Padded v doc) (hp : Orderly path) :
    ∃ r, ObtainsAt (path.length + 1) doc path r ∧ (r = [] ∨ ∃ x, Padded x r ∧ Tidy x) := by
  obtain ⟨r, h1, h2⟩ := obtainsAt_total stock_tidy _ path (Nat.lt_succ_self _) (orderly_tamed hp) doc (.inr ⟨v, hd, hv⟩)
  exact ⟨r, h1, nice_doc h2⟩

/-- C72: also in JSON Lines. -/
theorem C72_total_orderly_lines {doc path : Bytes} {vs : List Bytes} (hd : JsonLines doc vs) (hv : ∀ v ∈ vs, Tidy v)
    (hp : Orderly (b!".." ++ path)) :
    ∃ r, ObtainsAt (path.length + 3) doc (b!".." ++ path) r ∧ (r = [] ∨ ∃ x, Padded x r ∧ Tidy x) := by
  obtain ⟨r, h1, h2⟩ := obtainsAt_lines stock_tidy (orderly_tamed hp) hd hv
  exact ⟨r, h1, nice_doc h2⟩

/-- C72: paths that are `Mild` are `Harmless`, paths that are `Bare` are `Orderly`. -/
theorem C72_mild {path : Bytes} (h : Mild path) : Harmless path := mild_harmless h
theorem C72_bare {path : Bytes} (h : Bare path) : Orderly path := bare_orderly h

/-- C72: what `ugly` makes of a JSON text has nothing between the brackets of empty arrays and
objects, and so has what `pretty` makes of it with white space as prefix and indent. -/
theorem C72_ugly {doc : Bytes} (hd : JsonText doc) : ∃ v, ugly doc = .ok v ∧ Tidy v := by
  obtain ⟨w1, v, w2, rfl, h1, h2, hv⟩ := id hd
  obtain ⟨d, hd'⟩ := denotes_of_value hv
  obtain ⟨out, h3, h4, _⟩ := C30_tokens hd
  refine ⟨out, h3, ?_⟩
  rw [h4, tokens_padded ⟨w1, w2, h1, h2, rfl⟩ hd']
  exact tidy_bare hd'
theorem C72_pretty {doc : Bytes} (hd : JsonText doc) {o : PrettyOptions} (hpfx : Ws o.pfx) (hind : Ws o.indent) :
    ∃ out v, prettyOptions doc o = .ok out ∧ Padded v out ∧ Tidy v := by
  obtain ⟨w1, v, w2, rfl, h1, h2, hv⟩ := id hd
  obtain ⟨d, hd'⟩ := denotes_of_value hv
  exact ⟨_, _, C43_laid ⟨w1, w2, h1, h2, rfl⟩ hd' o, ⟨o.pfx, b!"\n", hpfx, by decide, rfl⟩, laid_tidy ⟨hpfx, hind⟩ _ _ hd'⟩

/-- C72: the same if the modifiers in the path are `Harmless`. -/
theorem C72_exact_harmless {doc path : Bytes} (hd : JsonText doc) (hp : Harmless path) (r : Bytes) :
    (∃ v, get doc path = .ok v ∧ v.json = r) ↔ Obtains doc path r :=
  exact_of ((C72_total_harmless hd hp).imp fun _ h => ⟨_, h.1⟩) r

/-- C72: the same if the document is `Tidy` and the path `Orderly`. -/
theorem C72_exact_orderly {v doc path : Bytes} (hv : Tidy v) (hd : Padded v doc) (hp : Orderly path) (r : Bytes) :
    (∃ v, get doc path = .ok v ∧ v.json = r) ↔ Obtains doc path r :=
  exact_of ((C72_total_orderly hv hd hp).imp fun _ h => ⟨_, h.1⟩) r

/-- C72: both for JSON Lines. -/
theorem C72_exact_harmless_lines {doc path : Bytes} {vs : List Bytes} (hd : JsonLines doc vs) (hp : Harmless (b!".." ++ path)) (r : Bytes) :
    (∃ v, get doc (b!".." ++ path) = .ok v ∧ v.json = r) ↔ Obtains doc (b!".." ++ path) r :=
  exact_of ((C72_total_harmless_lines hd hp).imp fun _ h => ⟨_, h.1⟩) r

theorem C72_exact_orderly_lines {doc path : Bytes} {vs : List Bytes} (hd : JsonLines doc vs) (hv : ∀ v ∈ vs, Tidy v)
    (hp : Orderly (b!".." ++ path)) (r : Bytes) :
    (∃ v, get doc (b!".." ++ path) = .ok v ∧ v.json = r) ↔ Obtains doc (b!".." ++ path) r :=
  exact_of ((C72_total_orderly_lines hd hv hp).imp fun _ h => ⟨_, h.1⟩) r

/-! ### Concrete cases -/

theorem cut_one {path : Bytes} {P P' : Parts} (h : CutUp path P) (h' : CutUp path P') : P = P' := by
  obtain ⟨q, _, hq⟩ := C64_one path
  rw [hq _ h, hq _ h']

theorem callOf_arg {k n a : Bytes} {m : Nat} (h : CallOf k (m + 1) n a) : n = (k.drop 1).take m ∧ a = k.drop (m + 2) := by
  generalize hm : m + 1 = j at h
  cases h with
  | bare => omega
  | arg =>
    obtain rfl : m = n.length := by omega
    refine ⟨by simp, ?_⟩
    simp [List.drop_append]

/-- The paths asked in a path whose first component is no query and no multipath, up to a pipe. -/
theorem asked_pipe {q p : Bytes} {P : Parts} (hc : CutUp p P) (hl : ¬ b!".." <+: p) (hh : ∀ c ∈ P.comp.head?, c ∉ b!"[{")
    (hq : ¬ b!"#(" <+: P.comp) (hs : P.sep ≠ c! '.') (h : Asked q p) : q = p ∨ P.sep ≠ 0 ∧ Asked q P.rest := by
  cases h with
  | self => exact .inl rfl
  | lines => exact absurd (List.prefix_append _ _) hl
  | rest hc' h1 h2 => rw [← cut_one hc hc'] at h1 h2; exact .inr ⟨h1, h2⟩
  | group hc' h1 => rw [← cut_one hc hc'] at h1; exact absurd h1 hs
  | left hc' h1 h2 =>
    rw [← cut_one hc hc'] at h1
    generalize P.comp = k at h1 hq
    cases h1 with
    | @query b h => exact absurd ⟨b ++ b!")" ++ h, by simp⟩ hq
    | none => exact absurd rfl h2
  | entry hc' h1 h2 =>
    rw [← cut_one hc hc'] at h1
    rw [h1] at hh
    have := hh _ rfl
    rcases h2 with ⟨rfl, _⟩ | ⟨rfl, _⟩ <;> exact absurd this (by decide)

/-- `@flatten` with the option `deep`. -/
example : Obtains b!"[1,[2,[3,[ ]]]]" b!"@flatten:{\"deep\":true}|#" b!"3" := by
  refine (C72_exact_harmless ((C01_valid_iff_rfc8259 _).1 (by decide +kernel)) ?_ _).1 (ok_of_json (by decide +kernel))
  have c1 : CutUp b!"@flatten:{\"deep\":true}|#" ⟨b!"@flatten:{\"deep\":true}", false, false, c! '|', 8, b!"#"⟩ :=
    (C64_exact b!"@flatten:{\"deep\":true}|#" ⟨b!"@flatten:{\"deep\":true}", false, false, c! '|', 8, b!"#"⟩).1 (by decide +kernel)
  have c2 : CutUp b!"#" ⟨b!"#", false, false, 0, 0, []⟩ := (C64_exact b!"#" ⟨b!"#", false, false, 0, 0, []⟩).1 (by decide +kernel)
  intro q P n a hq hc hn
  rcases asked_pipe c1 (by decide) (by decide) (by decide) (by decide) hq with rfl | ⟨_, hq⟩
  · rw [← cut_one c1 hc] at hn
    obtain ⟨rfl, rfl⟩ := callOf_arg hn
    exact .deep (x := b!"true") ((C48_exact ((C01_valid_iff_rfc8259 _).1 (by decide +kernel))
      (.last (.selector (PlainKey.selector ⟨by decide, by decide⟩ (by decide)))) b!"true").2 (ok_of_json (by decide +kernel))) (.yes (by decide))
  · rcases asked_pipe c2 (by decide) (by decide) (by decide) (by decide) hq with rfl | ⟨h, _⟩
    · rw [← cut_one c2 hc] at hn
      cases hn
    · exact absurd rfl h

/-- `@flatten` on its own. -/
example : Obtains b!" {\"a\":[1,[2,[3]],[]]}" b!"a.@flatten.#(>1)#|@flatten" b!"[2]" := by
  have val : ∀ {v}, valid v = .ok true → trimmed v = true → kindOf v ≠ .object → kindOf v ≠ .array → Nice Tidy v :=
    fun h1 h2 h3 h4 => nice_value (.scalar (value_of_valid h1 h2) h3 h4)
  have arr : ∀ {vs : List Bytes}, (∀ v ∈ vs, v ≠ [] ∧ Nice Tidy v) → Nice Tidy (arrayText vs) := nice_array stock_tidy
  have key : Tidy b!"{\"a\":[1,[2,[3]],[]]}" := by
    refine stock_object stock_tidy (ms := [(b!"\"a\"", b!"[1,[2,[3]],[]]")]) ?_
    simp only [List.forall_mem_cons, List.not_mem_nil, false_implies, implies_true, and_true]
    refine ⟨quoted_lit b!"a", by decide, arr (vs := [b!"1", b!"[2,[3]]", b!"[]"]) ?_⟩
    simp only [List.forall_mem_cons, List.not_mem_nil, false_implies, implies_true, and_true]
    refine ⟨⟨by decide, val (by decide +kernel) (by decide) (by decide) (by decide)⟩, ⟨by decide, arr (vs := [b!"2", b!"[3]"]) ?_⟩, by decide, arr (vs := []) (by simp)⟩
    simp only [List.forall_mem_cons, List.not_mem_nil, false_implies, implies_true, and_true]
    refine ⟨⟨by decide, val (by decide +kernel) (by decide) (by decide) (by decide)⟩, by decide, arr (vs := [b!"3"]) ?_⟩
    simp only [List.forall_mem_cons, List.not_mem_nil, false_implies, implies_true, and_true]
    exact ⟨by decide, val (by decide +kernel) (by decide) (by decide) (by decide)⟩
  exact (C72_exact_orderly key ⟨b!" ", [], by decide, by decide, rfl⟩ (C72_bare (by unfold Bare; decide +kernel)) _).1 (ok_of_json (by decide +kernel))

/-- `@flatten` behind `@pretty`: with blanks between the brackets of an empty array it would write
no JSON, `@pretty` has removed them. -/
example : (∃ v, Tidy v ∧ Padded v b!"[1,[]]" ∧ Orderly b!"@pretty|@flatten" ∧ Obtains b!"[1,[]]" b!"@pretty|@flatten" b!"[1]") ∧
    (get b!"[1,[ ]]" b!"@flatten").toOption.map Value.json = some b!"[1, ]" ∧
    (get b!"[1,[ ]]" b!"@pretty|@flatten").toOption.map Value.json = some b!"[1]" := by
  have key : Tidy b!"[1,[]]" := stock_array stock_tidy (xs := [b!"1", b!"[]"]) (by
    simp only [List.forall_mem_cons, List.not_mem_nil, false_implies, implies_true, and_true]
    exact ⟨⟨by decide, nice_value (.scalar (value_of_valid (by decide +kernel) (by decide)) (by decide) (by decide))⟩,
      by decide, nice_array stock_tidy (xs := []) (by simp)⟩)
  have ho : Orderly b!"@pretty|@flatten" := C72_bare (by unfold Bare; decide +kernel)
  exact ⟨⟨_, key, padded_self _, ho, (C72_exact_orderly key (padded_self _) ho _).1 (ok_of_json (by decide +kernel))⟩, by decide +kernel, by decide +kernel⟩

end Gjson
