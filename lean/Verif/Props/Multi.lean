import Verif.Lemmas.Multi
import Verif.Lemmas.Strings
import Verif.Lemmas.Examples
/-
C35: multipaths `[p1,...,pn]` and `{k1:p1,...,pn}`.

The grammar of the entries (`SubPath`, `SubName`, `Entry`) is in `Verif/SpecMulti.lean`.
-/
namespace Gjson
open Spec

theorem aligned_paths : ∀ {ps : List Bytes}, (∀ p ∈ ps, SubPath p) →
    ∃ es : List (Bytes × Bytes), Aligned (fun t e => Ent t e.1 e.2) ps es ∧ es.map (·.2) = ps
  | [], _ => ⟨[], .nil, rfl⟩
  | p :: ps, h => by
    obtain ⟨k, hk⟩ := entry_of_subPath (h p (by simp))
    obtain ⟨es, h1, h2⟩ := aligned_paths (ps := ps) fun q hq => h q (by simp [hq])
    exact ⟨(k, p) :: es, .cons hk.ent h1, by simp [h2]⟩

theorem aligned_ent {ts : List Bytes} {es : List (Bytes × Bytes)} (h : Aligned (fun t e => Entry t e.1 e.2) ts es) :
    Aligned (fun t e => Ent t e.1 e.2) ts es := by
  induction h with
  | nil => exact .nil
  | cons h _ ih => exact .cons (Spec.Entry.ent h) ih

/-- A path without any byte special to multipaths is a sub path. -/
theorem subPath_of_plain : ∀ {p : Bytes}, PlainQuoted p → SubPath p
  | [], _ => .nil
  | c :: p, h => .plain (h c (by simp)).1 (h c (by simp)).2.1 (h c (by simp)).2.2
      (subPath_of_plain fun x hx => h x (by simp [hx]))

/-- C35: the path `[p1,...,pn]` gives the array text made of the `json()` of those
`get(text, pi)` that exist, in order. If one of these calls panics, so does the whole. -/
theorem C35_array (text : Bytes) {ps : List Bytes} (hne : ps ≠ []) (hp : ∀ p ∈ ps, SubPath p) :
    match ps.mapM (get text) with
    | .ok rs => ∃ v, get text (c! '[' :: (commaSep ps ++ [c! ']'])) = .ok v ∧ v.exists = true ∧ v.kind = .array ∧
        v.json = arrayText ((rs.filter (·.exists)).map (·.json))
    | .error e => get text (c! '[' :: (commaSep ps ++ [c! ']'])) = .error e := by
  obtain ⟨es, h1, h2⟩ := aligned_paths hp
  have := get_multi_arr h1 hne (sep := 0) (rest := []) (t := []) ⟨rfl, rfl⟩ text
  rw [List.append_nil, h2] at this
  rw [this]
  cases ps.mapM (get text) with
  | error e => rfl
  | ok rs => exact ⟨_, rfl, by simp [multiArray, arrayText], by rw [multiArray, mkOwned_kind]; decide, by simp [multiArray, existing]⟩

/-- C35: the path `{e1,...,en}` with entries `ki:pi` or `pi` gives the object text with
the escaped keys and the `json()` of those `get(text, pi)` that exist, in order. The key
of an entry without a name is the last name of its path if that is simple, otherwise `_`. -/
theorem C35_object (text : Bytes) {ts : List Bytes} {es : List (Bytes × Bytes)} (hne : ts ≠ [])
    (he : Aligned (fun t e => Entry t e.1 e.2) ts es) :
    match (es.map (·.2)).mapM (get text) with
    | .ok rs => ∃ v, get text (c! '{' :: (commaSep ts ++ [c! '}'])) = .ok v ∧ v.exists = true ∧ v.kind = .object ∧
        v.json = objectText ((((es.map (·.1)).zip rs).filter (·.2.exists)).map fun kr => (escape kr.1, kr.2.json))
    | .error e => get text (c! '{' :: (commaSep ts ++ [c! '}'])) = .error e := by
  have := get_multi_obj (aligned_ent he) hne (sep := 0) (rest := []) (t := []) ⟨rfl, rfl⟩ text
  rw [List.append_nil] at this
  rw [this]
  cases (es.map (·.2)).mapM (get text) with
  | error e => rfl
  | ok rs => exact ⟨_, rfl, by simp [multiObject, objectText], by rw [multiObject, mkOwned_kind]; decide, by
      simp only [multiObject, mkOwned_json, members]; rfl⟩

/-- C35: with `.rest` or `|rest` behind, the result is that of `rest` on the array text. -/
theorem C35_array_rest (text : Bytes) {ps : List Bytes} (hne : ps ≠ []) (hp : ∀ p ∈ ps, SubPath p) {rs : List Value}
    (hr : ps.mapM (get text) = .ok rs) {s : UInt8} (hs : s = c! '.' ∨ s = c! '|') (rest : Bytes) :
    SameRes (get text (c! '[' :: (commaSep ps ++ [c! ']']) ++ s :: rest))
      (get (arrayText ((rs.filter (·.exists)).map (·.json))) rest) := by
  obtain ⟨es, h1, h2⟩ := aligned_paths hp
  have := get_multi_arr h1 hne (sep := s) (rest := rest) (t := s :: rest) ⟨hs, rfl, rfl⟩ text
  rw [this, h2, hr]
  simp only [ok_bind]
  rw [if_neg (by grind)]
  have := getIn_same (v := multiArray rs) (mkOwned_oneText _ _ _) rest
  rwa [multiArray, mkOwned_json] at this

/-- C35: with `.rest` or `|rest` behind, the result is that of `rest` on the object text. -/
theorem C35_object_rest (text : Bytes) {ts : List Bytes} {es : List (Bytes × Bytes)} (hne : ts ≠ [])
    (he : Aligned (fun t e => Entry t e.1 e.2) ts es) {rs : List Value}
    (hr : (es.map (·.2)).mapM (get text) = .ok rs) {s : UInt8} (hs : s = c! '.' ∨ s = c! '|') (rest : Bytes) :
    SameRes (get text (c! '{' :: (commaSep ts ++ [c! '}']) ++ s :: rest))
      (get (objectText ((((es.map (·.1)).zip rs).filter (·.2.exists)).map fun kr => (escape kr.1, kr.2.json))) rest) := by
  have := get_multi_obj (aligned_ent he) hne (sep := s) (rest := rest) (t := s :: rest) ⟨hs, rfl, rfl⟩ text
  rw [this, hr]
  simp only [ok_bind]
  rw [if_neg (by grind)]
  have := getIn_same (v := multiObject (es.map (·.1)) rs) (mkOwned_oneText _ _ _) rest
  rwa [multiObject, mkOwned_json] at this

/-- The texts above are JSON: if the parts are JSON values, `arrayText` is an array with
these elements. -/
theorem C35_array_isArray {vs : List Bytes} (h : ∀ v ∈ vs, IsValue v) : IsArray (arrayText vs) vs := by
  have := isArray_join h
  rw [joinComma_eq] at this
  simpa [arrayText] using this

/-- And `objectText` with escaped keys is an object with these members. -/
theorem C35_object_isObject {kvs : List (Bytes × Bytes)} (h : ∀ m ∈ kvs, IsValue m.2) :
    IsObject (objectText (kvs.map fun m => (escape m.1, m.2))) (kvs.map fun m => (escape m.1, m.2)) := by
  let ms : List Member := kvs.map fun m => ⟨[], escape m.1, [], [], m.2, []⟩
  have h1 := isObject_of_members (ms := ms) (by
    intro e he
    obtain ⟨m, _, rfl⟩ := List.mem_map.1 he
    exact ⟨Ws.nil, strLit_escape _, Ws.nil, Ws.nil, Ws.nil⟩) (by
    intro e he
    obtain ⟨m, hm, rfl⟩ := List.mem_map.1 he
    exact h m hm)
  have h2 := joinComma_members ms
  have e1 : ms.map Member.trim = ms := by simp [ms, Member.trim]
  rw [e1] at h2
  rw [← h2, joinComma_eq] at h1
  simpa [ms, objectText, Member.inner, Function.comp_def] using h1

/-- C35: every sub path can stand alone as an entry. -/
theorem C35_covers {p : Bytes} (h : SubPath p) : ∃ k, Entry p k p := entry_of_subPath h

/-- `[]` is the list with one empty sub path: it looks up the empty key. -/
theorem C35_empty (text : Bytes) {r : Value} (h : get text [] = .ok r) :
    ∃ v, get text b!"[]" = .ok v ∧ v.json = if r.exists then arrayText [r.json] else b!"[]" := by
  have := C35_array text (ps := [[]]) (by simp) (by intro p hp; simp at hp; subst hp; exact .nil)
  simp only [List.mapM_cons, h, ok_bind, List.mapM_nil, pure_eq_ok] at this
  obtain ⟨v, h1, _, _, h4⟩ := this
  refine ⟨v, h1, ?_⟩
  rw [h4]
  cases hr : r.exists <;> simp [hr, arrayText, commaSep]

/-! Concrete cases. -/

example : ∃ v, get b!"{\"a\":{\"b\":1},\"c\":[2,3]}" b!"[a.b,x,c.1]" = .ok v ∧ v.json = b!"[1,3]" := by
  have := C35_array b!"{\"a\":{\"b\":1},\"c\":[2,3]}" (ps := [b!"a.b", b!"x", b!"c.1"]) (by decide) (by
    intro p hp
    exact subPath_of_plain (by revert p; unfold PlainQuoted; decide))
  have h' : (([b!"a.b", b!"x", b!"c.1"].mapM (get b!"{\"a\":{\"b\":1},\"c\":[2,3]}")).toOption.map (·.map (·.json))) =
      some [b!"1", b!"", b!"3"] := by decide +kernel
  revert h' this
  generalize [b!"a.b", b!"x", b!"c.1"].mapM (get b!"{\"a\":{\"b\":1},\"c\":[2,3]}") = x
  intro this h'
  cases x with
  | error e => simp [Except.toOption] at h'
  | ok rs =>
    obtain ⟨v, h1, _, _, h4⟩ := this
    refine ⟨v, h1, h4.trans ?_⟩
    have hr : rs.map (·.json) = [b!"1", b!"", b!"3"] := by simpa [Except.toOption] using h'
    have e : (rs.filter (·.exists)).map (·.json) = (rs.map (·.json)).filter fun b => decide (b.length > 0) := by
      rw [List.filter_map]; rfl
    rw [e, hr]
    decide

example : Entry b!"n:a.b" b!"n" b!"a.b" :=
  .named (k := b!"n") (p := b!"a.b") (Spec.SubPath.name (subPath_of_plain (by unfold PlainQuoted; decide)))
    (subPath_of_plain (by unfold PlainQuoted; decide))
example : Entry b!"a.b" b!"b" b!"a.b" := by
  refine .last (subPath_of_plain (by unfold PlainQuoted; decide)) (.after (a := b!"a") (s := c! '.') (.inl rfl) (by decide) ?_) (by
    unfold SimpleName; decide)
  intro a s r e hs
  have : s ∈ b!"b" := by rw [e]; simp
  simp at this; grind
/-- A nested multipath with a query in it. -/
example : SubPath b!"c.#(x==\"],\").[d,e]" := by
  repeat (first | exact .nil | refine .plain (by decide) (by decide) (by decide) ?_ |
    refine .group (b := b!"x==\"],\"") (c := c! ')') (by decide) (by decide) ?_ ?_ |
    refine .group (b := b!"d,e") (c := c! ']') (by decide) (by decide) ?_ ?_ |
    refine Spec.Balanced.plain (by decide) ?_ | exact Spec.Balanced.nil |
    refine Spec.Balanced.str (b := b!"],") ?_ ?_ | refine Spec.QuotedBody.plain (by decide) (by decide) ?_ | exact Spec.QuotedBody.nil)
example : (get b!"{\"a\":{\"b\":1},\"c\":[2,3]}" b!"{n:a.b,c.1,x,a.b,c.#}").toOption.map (·.json) =
    some b!"{\"n\":1,\"1\":3,\"b\":1,\"_\":2}" := by decide +kernel
/-- The empty list of paths looks up the empty key. -/
example : (get b!"{\"\":7}" b!"[]").toOption.map (·.json) = some b!"[7]" := by decide +kernel
/-- A quoted name keeps its quotes. -/
example : (get b!"{\"b\":7}" b!"{\"a\":b}").toOption.map (·.json) = some b!"{\"\\\"a\\\"\":7}" := by decide +kernel

end Gjson
