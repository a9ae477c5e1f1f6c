import Verif.Lemmas.LexedClosed
import Verif.Lemmas.Kept
import Verif.Props.Results
/-
C59: results are made of whole tokens of the document. And C36 and C41 with `@flatten`
and `@join`.
-/
namespace Gjson
open Spec

/-- C59: in every text made of whole tokens, whether its brackets match or not, every path
without text to insert for `@pretty` finds a text made of whole tokens, and every string,
number and literal name in it is one of the text, or a key of the path, or a count. -/
theorem C59_tokens {text path : Bytes} {v : Value} (ht : InTokens (fun _ => True) text) (hp : ¬ AsksText path) (h : get text path = .ok v) :
    InTokens (Written text path) v.json :=
  (closes_tokens (rules_written text path)).get ⟨.inl (List.infix_refl _), hp⟩ _ _ ((inTokens_own ht).mono fun _ _ h => .inl h) h

/-- C59 for JSON texts. -/
theorem C59_json {text path : Bytes} {v : Value} (ht : JsonText text) (hp : ¬ AsksText path) (h : get text path = .ok v) :
    InTokens (Written text path) v.json := C59_tokens (jsonText_lexed ht) hp h

/-- C59 for JSON Lines without numbers on their own. -/
theorem C59_lines {text path : Bytes} {vs : List Bytes} {v : Value} (ht : JsonLines text vs) (hn : ∀ x ∈ vs, kindOf x ≠ .number)
    (hp : ¬ AsksText path) (h : get text path = .ok v) : InTokens (Written text path) v.json := C59_tokens (lines_lexed ht hn) hp h

example : JsonText b!"{\"a\":[[1,2],[3]],\"b\":\"x\"}" ∧ ¬ AsksText b!"{k:a.@flatten,b}|@pretty:{\"width\":9}" ∧
    (get b!"{\"a\":[[1,2],[3]],\"b\":\"x\"}" b!"{k:a.@flatten,b}|@pretty:{\"width\":9}" >>= fun v => .ok v.json) =
      .ok b!"{\n  \"k\": [\n    1,\n    2,\n    3\n  ],\n  \"b\": \"x\"\n}\n" :=
  ⟨(C01_valid_iff_rfc8259 _).1 (by decide +kernel), by decide, by decide +kernel⟩

/-- C59, results that are no arrays or objects: a string is a string of the document or a key
of the path; a number is a number of the document or a count; `true`, `false` and `null`
are there in the document. None of them is cut short or put together from pieces. -/
theorem C59_scalar {text path : Bytes} {v : Value} (ht : InTokens (fun _ => True) text) (hp : ¬ AsksText path) (h : get text path = .ok v)
    (he : v.exists = true) :
    (v.kind = .string → StrLit v.json ∧ (TokenOf text v.json ∨ ∃ k, (k <:+: path ∨ k = b!"_") ∧ v.json = Spec.quoted k)) ∧
    (v.kind = .number → NumLit v.json ∧ (TokenOf text v.json ∨ ∃ n, v.json = numeral n)) ∧
    (v.kind = .true → v.json = b!"true" ∧ TokenOf text b!"true") ∧
    (v.kind = .false → v.json = b!"false" ∧ TokenOf text b!"false") ∧
    (v.kind = .null → v.json = b!"null" ∧ TokenOf text b!"null") ∧
    (v.kind = .array → v.json.head? = some (c! '[')) ∧ (v.kind = .object → v.json.head? = some (c! '{')) := by
  have hf := (get_prov h).fits he (C59_tokens ht hp h)
  unfold FitsKind at hf
  have hnum : ∀ {w : Bytes} (n : Nat), (∃ c ∈ w, ¬ IsDigit c) → w ≠ numeral n := by
    rintro w n ⟨c, hc, hd⟩ rfl
    exact hd ((numeral_spec n).2.1 c hc)
  refine ⟨fun hk => ?_, fun hk => ?_, fun hk => ?_, fun hk => ?_, fun hk => ?_, fun hk => ?_, fun hk => ?_⟩
  · rw [hk] at hf
    exact ⟨hf.1, written_str hf.2 hf.1⟩
  · rw [hk] at hf
    refine ⟨hf.1, written_other hf.2 fun hh => ?_⟩
    exact absurd (numLit_numCh hf.1 (c! '"') (List.mem_of_mem_head? hh)) (by decide)
  · rw [hk] at hf
    obtain ⟨h1, h2⟩ := hf
    rw [h1] at h2
    exact ⟨h1, (written_other h2 (by decide)).resolve_right fun ⟨n, hn⟩ => hnum n ⟨c! 't', by decide, by decide⟩ hn⟩
  · rw [hk] at hf
    obtain ⟨h1, h2⟩ := hf
    rw [h1] at h2
    exact ⟨h1, (written_other h2 (by decide)).resolve_right fun ⟨n, hn⟩ => hnum n ⟨c! 'f', by decide, by decide⟩ hn⟩
  · rw [hk] at hf
    obtain ⟨h1, h2⟩ := hf
    rw [h1] at h2
    exact ⟨h1, (written_other h2 (by decide)).resolve_right fun ⟨n, hn⟩ => hnum n ⟨c! 'n', by decide, by decide⟩ hn⟩
  · rw [hk] at hf
    obtain ⟨r, h1⟩ := hf
    rw [h1]; rfl
  · rw [hk] at hf
    obtain ⟨r, h1⟩ := hf
    rw [h1]; rfl

example : InTokens (fun _ => True) b!"[[1,[-2.50e3]],{\"a\":\"x\\\"y\"}]" ∧ ¬ AsksText b!"@flatten|@reverse|1.@flatten:{\"deep\":true}.0" ∧
    (get b!"[[1,[-2.50e3]],{\"a\":\"x\\\"y\"}]" b!"@flatten|@reverse|1.@flatten:{\"deep\":true}.0" >>= fun v => .ok (v.kind, v.json)) =
      .ok (.number, b!"-2.50e3") :=
  ⟨jsonText_lexed ((C01_valid_iff_rfc8259 _).1 (by decide +kernel)), by decide, by decide +kernel⟩

/-- C59: `tools::pretty` with any width, sorted keys or not, and whitespace as prefix and
indent, keeps the tokens whole, also in texts that are not JSON; so does `tools::ugly`. -/
theorem C59_formats {Q : Bytes → Prop} {text : Bytes} (ht : InTokens Q text) :
    (∃ out, ugly text = .ok out ∧ InTokens Q out) ∧
    ∀ o : PrettyOptions, Ws o.pfx → Ws o.indent → ∀ out, prettyOptions text o = .ok out → InTokens Q out := by
  obtain ⟨e, hl⟩ := id ht
  exact ⟨⟨_, ugly_eq _, e, pUgly_lexed hl⟩, fun o h1 h2 out h => prettyOptions_lexed ht h1 h2 h⟩

example : InTokens (fun t => t ∈ [b!"12", b!"\"a b\"", b!"true"]) b!"{ \"a b\" : [ 12 , true ] ] } , \"a b\"" ∧
    ugly b!"{ \"a b\" : [ 12 , true ] ] } , \"a b\"" = .ok b!"{\"a b\":[12,true]]},\"a b\"" := by
  refine ⟨⟨true, ?_⟩, by decide +kernel⟩
  have ab : StrLit b!"\"a b\"" := strLit_escape b!"a b"
  refine .opn (by decide) (.ws (by decide) (.str (t := b!"\"a b\"") ab (by decide) (.ws (by decide) (.sep (by decide) (.ws (by decide) (.opn (by decide) (.ws (by decide)
    (.num (t := b!"12") (natDec_num 12) (by decide) (.ws (by decide) (.sep (by decide) (.ws (by decide) (.word (t := b!"true") (by decide) (by decide) (.ws (by decide)
      (.sep (by decide) (.ws (by decide) (.sep (by decide) (.ws (by decide) (.sep (by decide) (.ws (by decide) (.sep (by decide) (.ws (by decide) ?_)))))))))))))))))))))
  exact lexed_str ab (by decide)

/-- C59: what the conditions are for. Numbers on lines of their own grow together in `@ugly`,
and `@pretty` writes what it is told to between the tokens. -/
theorem C59_needed :
    (get b!"1\n2" b!"@ugly" >>= fun v => .ok v.json) = .ok b!"12" ∧ JsonLines b!"1\n2" [b!"1", b!"2"] ∧
    (get b!"[1]" b!"@pretty:{\"prefix\":\"7\",\"width\":1}" >>= fun v => .ok v.json) = .ok b!"7" ∧
    AsksText b!"@pretty:{\"prefix\":\"7\",\"width\":1}" :=
  ⟨by decide +kernel, .cons (w := []) ws_nil (.num (natDec_num 1)) (by decide) (.last (w := []) ws_nil (.num (natDec_num 2))), by decide +kernel, by decide⟩

/-! ### C36 and C41 -/

/-- C41 for results that are no arrays or objects, with all modifiers: the text is a JSON
value, and the result is what `parse` reads off its text. -/
theorem C41_scalar {text path : Bytes} {v : Value} (ht : InTokens (fun _ => True) text) (hp : ¬ AsksText path) (h : get text path = .ok v)
    (he : v.exists = true) (hk : v.kind ≠ .object ∧ v.kind ≠ .array) : IsValue v.json ∧ SameAsText v v.json := by
  obtain ⟨h1, h2, h3, h4, h5, _⟩ := C59_scalar ht hp h he
  have : IsValue v.json := by
    cases hkk : v.kind with
    | string => exact .str (h1 hkk).1
    | number => exact .num (h2 hkk).1
    | true => rw [(h3 hkk).1]; exact .true
    | false => rw [(h4 hkk).1]; exact .false
    | null => rw [(h5 hkk).1]; exact .null
    | array => exact absurd hkk hk.2
    | object => exact absurd hkk hk.1
  exact ⟨this, (get_prov h).same (.inl this)⟩

/-- C36 for JSON texts, and other texts of whole tokens, and all paths without text to insert
for `@pretty`, also with `@flatten` and `@join`. -/
theorem C36_tokens_partial {text path : Bytes} {v : Value} (ht : InTokens (fun _ => True) text) (hu : IsUtf8 text) (hp : ¬ AsksText path)
    (hpu : IsUtf8 path) (h : get text path = .ok v) : IsUtf8 v.json ∧ ∀ s, v.str = .ok s → IsUtf8 s := by
  obtain ⟨e, hl⟩ := (closes_tokens rules_utf8).get ⟨hpu, hp⟩ _ _ ((inTokens_own ht).mono fun _ _ h => tokenOf_utf8 hu h) h
  have hj := lexed_utf8 hl
  refine ⟨hj, fun s hs => ?_⟩
  by_cases hx : v.exists = true ∧ (v.kind ≠ .object ∧ v.kind ≠ .array)
  · exact str_utf8 (get_prov h) (fun _ => .inl (C41_scalar ht hp h hx.1 hx.2).1) hj hs
  · by_cases he : v.exists = true
    · have hk : v.kind = .object ∨ v.kind = .array := by grind
      unfold Value.str at hs
      rcases hk with hk | hk <;> rw [hk] at hs <;> cases hs <;> exact hj
    · exact str_utf8 (get_prov h) (fun h => absurd h he) hj hs

example : InTokens (fun _ => True) b!"[[\"é\"],[\"ü\\u00e9\"]]" ∧ IsUtf8 b!"[[\"é\"],[\"ü\\u00e9\"]]" ∧ ¬ AsksText b!"{ñ:@flatten.1}" ∧ IsUtf8 b!"{ñ:@flatten.1}" ∧
    (get b!"[[\"é\"],[\"ü\\u00e9\"]]" b!"{ñ:@flatten.1}" >>= fun v => .ok v.json) = .ok b!"{\"ñ\":\"ü\\u00e9\"}" :=
  ⟨jsonText_lexed ((C01_valid_iff_rfc8259 _).1 (by decide +kernel)), by decide +kernel, by decide, by decide +kernel, by decide +kernel⟩

end Gjson
