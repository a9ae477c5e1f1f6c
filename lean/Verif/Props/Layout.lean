import Verif.Lemmas.LayoutLim
import Verif.Lemmas.Resort
import Verif.Props.Format
import Verif.Lemmas.Examples
/-
C43: the exact text written by `pretty`.

`Doc.layout` and `Doc.laid` are defined in `Verif/SpecLayout.lean`, `Denotes` and `Doc.sort` in
`Verif/SpecDoc.lean`.
-/
namespace Gjson
open Spec

/-- C43: for every JSON text nested less deep than 500 and all options, `pretty` gives
the prefix, the layout of the document (sorted if that is asked for) and a line break. -/
theorem C43_layout {t v : Bytes} {d : Doc} (hp : Padded v t) (hd : Denotes v d) (hlim : d.height < 500) (o : PrettyOptions) :
    prettyOptions t o = .ok (o.pfx ++ ((if o.sortKeys then d.sort else d).layout ⟨o.width, o.pfx, o.indent⟩ 0 o.pfx.length ++ b!"\n")) :=
  prettyOptions_layout hd hp hlim

/-- C43: for every JSON text of any depth and all options. From the first array or object
nested 500 deep on, `pretty` leaves out all whitespace to the end of the text. -/
theorem C43_laid {t v : Bytes} {d : Doc} (hp : Padded v t) (hd : Denotes v d) (o : PrettyOptions) :
    prettyOptions t o = .ok (o.pfx ++ (d.laid ⟨o.width, o.pfx, o.indent⟩ o.sortKeys 499 ++ b!"\n")) :=
  prettyOptions_laid hd hp o

/-! The text `[[1,2,3],[1,2,3]]`, its document, and its layout with width 9: the first
element does not fit on its line, because the line break in front of it is counted; the
same array as second element fits. -/

theorem nested_inner : Denotes b!"[1,2,3]" (.arr [.leaf b!"1", .leaf b!"2", .leaf b!"3"]) := by
  have hv : ∀ t : Bytes, valid t = .ok true → trimmed t = true → kindOf t = .number → Denotes t (.leaf t) := by
    intro t h1 h2 h3
    exact .leaf (value_of_valid h1 h2) (by rw [h3]; decide) (by rw [h3]; decide)
  exact .arr (es := [(⟨[], b!"1", []⟩, .leaf b!"1"), (⟨[], b!"2", []⟩, .leaf b!"2"), (⟨[], b!"3", []⟩, .leaf b!"3")]) (by simp)
    (by simp only [List.forall_mem_cons]; exact ⟨⟨ws_nil, ws_nil⟩, ⟨ws_nil, ws_nil⟩, ⟨ws_nil, ws_nil⟩, by simp⟩)
    (by
      simp only [List.forall_mem_cons]
      exact ⟨hv _ (by decide +kernel) (by decide) rfl, hv _ (by decide +kernel) (by decide) rfl, hv _ (by decide +kernel) (by decide) rfl, by simp⟩)

theorem nested_denotes : Denotes b!"[[1,2,3] ,[1,2,3]]"
    (.arr [.arr [.leaf b!"1", .leaf b!"2", .leaf b!"3"], .arr [.leaf b!"1", .leaf b!"2", .leaf b!"3"]]) :=
  .arr (es := [(⟨[], b!"[1,2,3]", b!" "⟩, _), (⟨[], b!"[1,2,3]", []⟩, _)]) (by simp)
    (by simp only [List.forall_mem_cons]; exact ⟨⟨ws_nil, by decide⟩, ⟨ws_nil, ws_nil⟩, by simp⟩)
    (by simp only [List.forall_mem_cons]; exact ⟨nested_inner, nested_inner, by simp⟩)

example : prettyOptions b!" [[1,2,3] ,[1,2,3]]" ⟨9, [], [], false⟩ = .ok b!"[\n[\n1,\n2,\n3\n],\n[1, 2, 3]\n]\n" := by
  rw [C43_layout ⟨b!" ", [], by decide, ws_nil, by decide⟩ nested_denotes (by decide)]
  decide +kernel

/-- The same from the model, and a document with an object: its array is never put on
one line. -/
example : prettyOptions b!" [[1,2,3] ,[1,2,3]]" ⟨9, [], [], false⟩ = .ok b!"[\n[\n1,\n2,\n3\n],\n[1, 2, 3]\n]\n" ∧
    pretty b!"{\"a\":[1,{}],\"b\":[1,[]]}" = .ok b!"{\n  \"a\": [\n    1,\n    {}\n  ],\n  \"b\": [1, []]\n}\n" := by decide +kernel

/-- An empty array and a number, inside of `n` further arrays. -/
def wrapped : Nat → Doc
  | 0 => .arr [.arr [], .leaf b!"1"]
  | n + 1 => .arr [wrapped n]

/-- The text of `wrapped`. -/
def wrappedText : Nat → Bytes
  | 0 => b!"[[ ] , 1]"
  | n + 1 => c! '[' :: (wrappedText n ++ b!"]")

theorem wrapped_denotes : ∀ n, Denotes (wrappedText n) (wrapped n)
  | 0 => .arr (es := [(⟨[], b!"[ ]", b!" "⟩, _), (⟨b!" ", b!"1", []⟩, _)]) (by simp)
      (by simp only [List.forall_mem_cons]; exact ⟨⟨ws_nil, by decide⟩, ⟨by decide, ws_nil⟩, by simp⟩)
      (by
        simp only [List.forall_mem_cons]
        exact ⟨.arrEmpty (w := b!" ") (by decide), .leaf (value_of_valid (by decide +kernel) (by decide)) (by decide) (by decide), by simp⟩)
  | n + 1 => by
    have := Denotes.arr (es := [(⟨[], wrappedText n, []⟩, wrapped n)]) (by simp)
      (by simp only [List.forall_mem_cons]; exact ⟨⟨ws_nil, ws_nil⟩, by simp⟩)
      (by simp only [List.forall_mem_cons]; exact ⟨wrapped_denotes n, by simp⟩)
    simpa [wrapped, wrappedText, elemsText, Elem.text] using this

set_option maxRecDepth 10000 in
/-- An array nested 499 deep still gets lines of its own. -/
example : prettyOptions (wrappedText 497) ⟨0, [], [], false⟩ =
    .ok ((List.replicate 498 b!"[\n").flatten ++ b!"[],\n1" ++ (List.replicate 498 b!"\n]").flatten ++ b!"\n") := by
  rw [C43_laid ⟨[], [], ws_nil, ws_nil, by simp⟩ (wrapped_denotes 497)]
  decide +kernel

set_option maxRecDepth 10000 in
/-- One level deeper, all that follows is written without whitespace. -/
example : prettyOptions (wrappedText 498) ⟨0, [], [], false⟩ =
    .ok ((List.replicate 499 b!"[\n").flatten ++ b!"[],1" ++ List.replicate 499 (c! ']') ++ b!"\n") := by
  rw [C43_laid ⟨[], [], ws_nil, ws_nil, by simp⟩ (wrapped_denotes 498)]
  decide +kernel

/-- C43: the function `pretty`: width 80, indent of two spaces, no prefix, no sorting. -/
theorem C43_default {t v : Bytes} {d : Doc} (hp : Padded v t) (hd : Denotes v d) (hlim : d.height < 500) :
    pretty t = .ok (d.layout ⟨80, [], b!"  "⟩ 0 0 ++ b!"\n") :=
  C43_layout hp hd hlim PrettyOptions.default

/-- C43: the result depends on the tokens of the text only, not on its whitespace. -/
theorem C43_whitespace {t t' v : Bytes} {d : Doc} (hp : Padded v t) (hd : Denotes v d) (he : tokens t' = tokens t)
    (o : PrettyOptions) : prettyOptions t' o = prettyOptions t o := by
  rw [tokens_padded hp hd] at he
  obtain ⟨v', hp', hd'⟩ := denotes_of_tokens hd he
  rw [C43_laid hp hd o, C43_laid hp' hd' o]

mutual
theorem cutLine_sortLim : ∀ (k : Nat) (rest : Bytes) (d : Doc), k < d.height → (d.sortLim k).cutLine k rest = d.cutLine k rest
  | _, _, .leaf _, _ => by simp [Doc.sortLim]
  | 0, _, .arr _, _ => by simp [Doc.sortLim]
  | 0, _, .obj _, _ => by simp [Doc.sortLim]
  | k + 1, rest, .arr es, h => by
    simp only [Doc.height] at h
    rw [Doc.sortLim, Doc.cutLine, Doc.cutLine, cutLineElems_lim k rest es]
  | k + 1, rest, .obj ms, h => by
    rw [Doc.sortLim]
    split <;> simp [Doc.cutLine]
theorem cutLineElems_lim : ∀ (k : Nat) (rest : Bytes) (es : List Doc), cutLineElems k rest (limElems k es) = cutLineElems k rest es
  | _, _, [] => by simp [limElems]
  | k, rest, d :: r => by
    by_cases h : d.height ≤ k
    · rw [limElems, if_pos h, cutLineElems, cutLineElems, if_pos h, if_pos (by rwa [height_sort]), line_sort, cutLineElems_lim k rest r]
    · rw [limElems, if_neg h, cutLineElems, cutLineElems, if_neg h, if_neg (by rwa [height_sortLim]), cutLine_sortLim k _ d (by omega)]
end

mutual
theorem cut_sortLim (s : Style) : ∀ (n col k : Nat) (rest : Bytes) (d : Doc), k < d.height → (d.sortLim k).cut s true n col k rest = d.cut s true n col k rest
  | _, _, _, _, .leaf _, _ => by simp [Doc.sortLim]
  | _, _, 0, _, .arr _, _ => by simp [Doc.sortLim]
  | _, _, 0, _, .obj _, _ => by simp [Doc.sortLim]
  | n, col, k + 1, rest, .arr es, h => by
    have := cutLine_sortLim (k + 1) rest (.arr es) h
    simp only [Doc.sortLim] at this ⊢
    rw [Doc.cut, Doc.cut, this, cutElems_lim s n _ k rest es]
  | n, col, k + 1, rest, .obj ms, h => by
    simp only [Doc.height] at h
    rw [Doc.sortLim, if_neg (by omega), Doc.cut, Doc.cut, cutMembers_lim s n k rest ms]
theorem cutElems_lim (s : Style) : ∀ (n col k : Nat) (rest : Bytes) (es : List Doc), cutElems s true n col k rest (limElems k es) = cutElems s true n col k rest es
  | _, _, _, _, [] => by simp [limElems]
  | n, col, k, rest, d :: r => by
    by_cases h : d.height ≤ k
    · rw [limElems, if_pos h, cutElems, cutElems, if_pos h, if_pos (by rwa [height_sort]), if_pos rfl, if_pos rfl, sort_sort, cutElems_lim s n _ k rest r]
    · rw [limElems, if_neg h, cutElems, cutElems, if_neg h, if_neg (by rwa [height_sortLim]), cut_sortLim s (n + 1) col k _ d (by omega)]
theorem cutMembers_lim (s : Style) : ∀ (n k : Nat) (rest : Bytes) (ms : List (Bytes × Doc)), cutMembers s true n k rest (limVals k ms) = cutMembers s true n k rest ms
  | _, _, _, [] => by simp [limVals]
  | n, k, rest, (key, d) :: r => by
    by_cases h : d.height ≤ k
    · rw [limVals, if_pos h, cutMembers, cutMembers, if_pos h, if_pos (by rwa [height_sort]), if_pos rfl, if_pos rfl, sort_sort, cutMembers_lim s n k rest r]
    · rw [limVals, if_neg h, cutMembers, cutMembers, if_neg h, if_neg (by rwa [height_sortLim]), cut_sortLim s (n + 1) _ k _ d (by omega)]
end

theorem laid_sortLim (s : Style) (k : Nat) (d : Doc) : (d.sortLim k).laid s true k = d.laid s true k := by
  unfold Doc.laid
  by_cases h : d.height ≤ k
  · rw [if_pos h, if_pos (by rwa [height_sortLim]), if_pos rfl, if_pos rfl, sortLim_fit h, sort_sort]
  · rw [if_neg h, if_neg (by rwa [height_sortLim]), cut_sortLim s _ _ k _ d (by omega)]

/-- C43: `pretty` with the same options gives the same text again, if prefix and indent
are whitespace. -/
theorem C43_idempotent {t v : Bytes} {d : Doc} (hp : Padded v t) (hd : Denotes v d) {o : PrettyOptions}
    (hpfx : Ws o.pfx) (hind : Ws o.indent) : ∃ out, prettyOptions t o = .ok out ∧ prettyOptions out o = .ok out := by
  refine ⟨_, C43_laid hp hd o, ?_⟩
  cases hs : o.sortKeys
  · obtain ⟨out, v', h1, h2, h3⟩ := C31_document hp hd hpfx hind hs
    rw [C43_laid hp hd o, hs] at h1
    cases h1
    rw [C43_laid h2 h3 o, hs]
  · obtain ⟨out, v', h1, h2, h3⟩ := C38_exact hp hd hpfx hind hs
    rw [C43_laid hp hd o, hs] at h1
    cases h1
    rw [C43_laid h2 h3 o, hs, laid_sortLim]

/-- What an option is: the value read from the argument if there is one. -/
def OptionIs {α : Type} (r : Value) (read : Res α) (dflt x : α) : Prop :=
  (r.exists = true → read = .ok x) ∧ (r.exists = false → x = dflt)

theorem u32_lt {v : Value} {w : Nat} (h : v.u32 = .ok w) : w < 2 ^ 32 := by
  unfold Value.u32 at h
  obtain ⟨x, _, h⟩ := bind_eq_ok.1 h
  cases h
  unfold wrapUnsigned
  exact Nat.mod_lt _ (by decide)

theorem setWidth_small (o : PrettyOptions) {w : Nat} (h : w < 2 ^ 32) : o.setWidth w = { o with width := w } := by
  unfold PrettyOptions.setWidth
  have : Int.bmod w (2 ^ 64) = w := by
    rw [Int.bmod_def]
    split <;> omega
  rw [this]

/-- What `@pretty` writes with the options that are read from the argument. -/
theorem modPretty_laid {t v : Bytes} {d : Doc} (hp : Padded v t) (hd : Denotes v d) {a : Bytes}
    {ri rp rs rw : Value} (h1 : get a b!"indent" = .ok ri) (h2 : get a b!"prefix" = .ok rp) (h3 : get a b!"sortKeys" = .ok rs)
    (h4 : get a b!"width" = .ok rw) {indent pfx : Bytes} {sortKeys : Bool} {width : Nat}
    (hi : OptionIs ri ri.str b!"  " indent) (hx : OptionIs rp rp.str [] pfx) (hs : OptionIs rs rs.bool false sortKeys)
    (hw : OptionIs rw rw.u32 80 width) :
    modApply get b!"pretty" t a = .ok (pfx ++ (d.laid ⟨width, pfx, indent⟩ sortKeys 499 ++ b!"\n")) := by
  have e : modApply get b!"pretty" t a = modPretty get t a := rfl
  rw [e, ← C43_laid hp hd ⟨width, pfx, indent, sortKeys⟩]
  unfold modPretty
  split
  · rw [h1, h2, h3, h4]
    simp only [ok_bind]
    have e1 : optIndent PrettyOptions.default ri = .ok ⟨80, [], indent, false⟩ := by
      unfold optIndent
      split
      · rename_i hh; rw [hi.1 hh]; rfl
      · rename_i hh; rw [hi.2 (by simpa using hh)]; rfl
    have e2 : optPrefix ⟨80, [], indent, false⟩ rp = .ok ⟨80, pfx, indent, false⟩ := by
      unfold optPrefix
      split
      · rename_i hh; rw [hx.1 hh]; rfl
      · rename_i hh; rw [hx.2 (by simpa using hh)]
    have e3 : optSortKeys ⟨80, pfx, indent, false⟩ rs = .ok ⟨80, pfx, indent, sortKeys⟩ := by
      unfold optSortKeys
      split
      · rename_i hh; rw [hs.1 hh]; rfl
      · rename_i hh; rw [hs.2 (by simpa using hh)]
    have e4 : optWidth ⟨80, pfx, indent, sortKeys⟩ rw = .ok ⟨width, pfx, indent, sortKeys⟩ := by
      unfold optWidth
      split
      · rename_i hh
        have := hw.1 hh
        rw [this]
        simp only [ok_bind]
        rw [setWidth_small _ (u32_lt this)]
      · rename_i hh; rw [hw.2 (by simpa using hh)]; rfl
    rw [e1]; simp only [ok_bind]
    rw [e2]; simp only [ok_bind]
    rw [e3]; simp only [ok_bind]
    rw [e4]; simp only [ok_bind]
  · rename_i hl
    have : a = [] := by cases a <;> simp at hl ⊢
    subst this
    have k1 : get [] b!"indent" = .ok Value.default := by decide +kernel
    have k2 : get [] b!"prefix" = .ok Value.default := by decide +kernel
    have k3 : get [] b!"sortKeys" = .ok Value.default := by decide +kernel
    have k4 : get [] b!"width" = .ok Value.default := by decide +kernel
    rw [k1] at h1; rw [k2] at h2; rw [k3] at h3; rw [k4] at h4
    cases h1; cases h2; cases h3; cases h4
    rw [hi.2 (by decide), hx.2 (by decide), hs.2 (by decide), hw.2 (by decide)]
    rfl

/-- C43: `@pretty` with an argument uses the options that are read from the argument:
`indent` and `prefix` as strings, `sortKeys` as boolean and `width` as number. -/
theorem C43_modifier {t v : Bytes} {d : Doc} (hp : Padded v t) (hd : Denotes v d) {a m : Bytes} (hm : ModCall b!"pretty" a m)
    {ri rp rs rw : Value} (h1 : get a b!"indent" = .ok ri) (h2 : get a b!"prefix" = .ok rp) (h3 : get a b!"sortKeys" = .ok rs)
    (h4 : get a b!"width" = .ok rw) {indent pfx : Bytes} {sortKeys : Bool} {width : Nat}
    (hi : OptionIs ri ri.str b!"  " indent) (hx : OptionIs rp rp.str [] pfx) (hs : OptionIs rs rs.bool false sortKeys)
    (hw : OptionIs rw rw.u32 80 width) :
    ∃ r p, get t m = .ok r ∧ parse (pfx ++ (d.laid ⟨width, pfx, indent⟩ sortKeys 499 ++ b!"\n")) = .ok p ∧
      SameValue r p := by
  have ho := modPretty_laid hp hd h1 h2 h3 h4 hi hx hs hw
  have := get_mod hm (t := []) (sep := 0) (rest := []) ⟨rfl, rfl⟩ t
  rw [List.append_nil, ho] at this
  exact ⟨_, _, this, parse_eq _, sameValue_owned (pParse_oneText _ 0)⟩

end Gjson
