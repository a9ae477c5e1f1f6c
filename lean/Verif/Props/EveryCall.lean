import Verif.Lemmas.Calls
import Verif.Props.Query
import Verif.Props.Multi
import Verif.Props.Parts
/-
C68: modifiers and multipaths, with every sequence of bytes as a path.
-/
namespace Gjson
open Spec

/-! ### How they are cut -/

/-- C68: what stands between the brackets of a multipath is cut into entries in exactly one way. -/
theorem C68_entries (s : Bytes) : ∃ es, EntriesOf s es ∧ ∀ es', EntriesOf s es' → es' = es := by
  obtain ⟨es, h⟩ := entriesOf_exists s
  exact ⟨es, h, fun es' h' => entriesOf_one h' h⟩

/-- C68: `each_comp` calls its function with just these, in their order. -/
theorem C68_each (s : Bytes) (es : List (Bytes × Bytes)) (o c : UInt8) :
    eachComp (o :: (s ++ [c])) (fun (st : List (Bytes × Bytes)) k p => .ok (st ++ [(k, p)])) [] = .ok es ↔ EntriesOf s es := by
  have main : ∀ {es}, EntriesOf s es →
      eachComp (o :: (s ++ [c])) (fun (st : List (Bytes × Bytes)) k p => .ok (st ++ [(k, p)])) [] = .ok es := fun {es} h => by
    rw [each_inner _ h, foldlM_collect]
    rfl
  constructor
  · intro h
    obtain ⟨es', h'⟩ := entriesOf_exists s
    rw [main h'] at h
    exact Except.ok.inj h ▸ h'
  · exact main

/-- C68: a component that begins with `@` is a call of exactly one name with exactly one argument. -/
theorem C68_call {path : Bytes} {P : Parts} (hc : CutUp path P) (hh : P.comp.head? = some (c! '@')) :
    ∃ n a, CallOf P.comp P.arg n a ∧ ∀ n' a', CallOf P.comp P.arg n' a' → n' = n ∧ a' = a := by
  obtain ⟨n, a, h⟩ := call_of hc hh
  exact ⟨n, a, h, fun n' a' h' => call_one h' h⟩

/-! ### What modifiers give -/

section
variable {path : Bytes} {P : Parts} (hc : CutUp path P) (doc : Bytes)
include hc

/-- C68: only the name and the argument of a call matter, and the rest of the path is applied to
what the call gives. -/
theorem C68_modifier {n a path' : Bytes} {P' : Parts} (h : CallOf P.comp P.arg n a) (hc' : CutUp path' P')
    (h' : CallOf P'.comp P'.arg n a) (hs : P'.sep = 0) :
    get doc path = (get doc path' >>= fun v => goOn v P.sep P.rest) := by
  rw [get_call hc h, get_call hc' h']
  cases modApply get n doc a with
  | error e => rfl
  | ok out =>
    simp only [ok_bind]
    rw [show goOn (jsonIntoOwned (pParse 0 out)) P'.sep P'.rest = .ok (jsonIntoOwned (pParse 0 out)) from if_pos hs]
    rfl

/-- C68: a name that is not one of the modifiers, byte for byte, gives nothing. -/
theorem C68_unknown {n a : Bytes} (h : CallOf P.comp P.arg n a) (hn : n ∉ modifierNames) :
    ∃ v, v.exists = false ∧ v.json = [] ∧ get doc path = goOn v P.sep P.rest ∧ ∀ p, SameRes (v.get p) (get v.json p) := by
  simp only [modifierNames, List.mem_cons, List.not_mem_nil, or_false, not_or] at hn
  have e : modApply get n doc a = .ok [] := by
    unfold modApply
    rw [if_neg hn.1, if_neg hn.2.1, if_neg hn.2.2.1, if_neg hn.2.2.2.1, if_neg hn.2.2.2.2.1, if_neg hn.2.2.2.2.2.1,
      if_neg hn.2.2.2.2.2.2]
  rw [get_call hc h, e]
  exact ⟨_, rfl, rfl, rfl, oneText_get (.inl rfl)⟩

/-- C68: `@this` gives the document as `parse` reads it. -/
theorem C68_this {a : Bytes} (h : CallOf P.comp P.arg b!"this" a) :
    ∃ p v, parse doc = .ok p ∧ SameValue v p ∧ get doc path = goOn v P.sep P.rest ∧ ∀ p, SameRes (v.get p) (get v.json p) := by
  refine ⟨pParse 0 doc, jsonIntoOwned (pParse 0 doc), parse_eq doc, sameValue_owned (pParse_oneText _ _), ?_, oneText_get (intoOwned_oneText _)⟩
  rw [get_call hc h]
  rfl

/-- C68: `@valid` gives the same if the document is JSON, and nothing otherwise. -/
theorem C68_valid {a : Bytes} (h : CallOf P.comp P.arg b!"valid" a) :
    ∃ v, (JsonText doc → ∃ p, parse doc = .ok p ∧ SameValue v p) ∧ (¬ JsonText doc → v.exists = false ∧ v.json = []) ∧
      get doc path = goOn v P.sep P.rest ∧ ∀ p, SameRes (v.get p) (get v.json p) := by
  have e : modApply get b!"valid" doc a = modValid doc := rfl
  rw [get_call hc h, e, modValid]
  by_cases hj : JsonText doc
  · refine ⟨jsonIntoOwned (pParse 0 doc), fun _ => ⟨_, parse_eq doc, sameValue_owned (pParse_oneText _ _)⟩, fun h => absurd hj h, ?_, oneText_get (intoOwned_oneText _)⟩
    rw [(C01_valid_iff_rfc8259 doc).2 hj]
    rfl
  · refine ⟨jsonIntoOwned (pParse 0 []), fun h => absurd h hj, fun _ => ⟨rfl, rfl⟩, ?_, oneText_get (intoOwned_oneText _)⟩
    rw [(C01_valid_false_iff doc).2 hj]
    rfl

/-- C68: four of the modifiers ignore their argument. -/
theorem C68_ignored {n a a' path' : Bytes} {P' : Parts} (h : CallOf P.comp P.arg n a) (hc' : CutUp path' P')
    (h' : CallOf P'.comp P'.arg n a') (hn : n ∈ [b!"this", b!"reverse", b!"ugly", b!"valid"]) (hs : P'.sep = P.sep) (hr : P'.rest = P.rest) :
    get doc path = get doc path' := by
  have e : modApply get n doc a = modApply get n doc a' := by
    simp only [List.mem_cons, List.not_mem_nil, or_false] at hn
    have key : ∀ x, modApply get n doc x = modApply get n doc [] := fun x => by
      unfold modApply
      rcases hn with h | h | h | h <;> subst h <;> simp
    rw [key a, key a']
  rw [get_call hc h, get_call hc' h', e, hs, hr]

/-! ### What multipaths give -/

/-- C68: `[…]` gives the array of what its sub paths find, in their order, and the rest of the path is
applied to it. -/
theorem C68_array {s : Bytes} {es : List (Bytes × Bytes)} (hk : P.comp = c! '[' :: (s ++ b!"]")) (he : EntriesOf s es) :
    match (es.map (·.2)).mapM (get doc) with
    | .ok rs => ∃ v, get doc path = goOn v P.sep P.rest ∧ v.exists = true ∧ v.kind = .array ∧
        v.json = arrayText ((rs.filter (·.exists)).map (·.json)) ∧
        (P.sep ≠ 0 → SameRes (get doc path) (get (arrayText ((rs.filter (·.exists)).map (·.json))) P.rest))
    | .error e => get doc path = .error e := by
  rw [get_arr hc hk he]
  cases (es.map (·.2)).mapM (get doc) with
  | error e => rfl
  | ok rs =>
    refine ⟨_, rfl, by simp [multiArray, arrayText], by rw [multiArray, mkOwned_kind]; decide, by simp [multiArray, existing], fun hs => ?_⟩
    have := getIn_same (v := multiArray rs) (mkOwned_oneText _ _ _) P.rest
    rw [multiArray, mkOwned_json] at this
    simp only [ok_bind, goOn, if_neg hs]
    exact this

/-- C68: `{…}` gives the object of what its sub paths find, with their keys. -/
theorem C68_object {s : Bytes} {es : List (Bytes × Bytes)} (hk : P.comp = c! '{' :: (s ++ b!"}")) (he : EntriesOf s es) :
    match (es.map (·.2)).mapM (get doc) with
    | .ok rs => ∃ v, get doc path = goOn v P.sep P.rest ∧ v.exists = true ∧ v.kind = .object ∧
        v.json = objectText ((((es.map (·.1)).zip rs).filter (·.2.exists)).map fun kr => (escape kr.1, kr.2.json)) ∧
        (P.sep ≠ 0 → SameRes (get doc path)
          (get (objectText ((((es.map (·.1)).zip rs).filter (·.2.exists)).map fun kr => (escape kr.1, kr.2.json))) P.rest))
    | .error e => get doc path = .error e := by
  rw [get_obj hc hk he]
  cases (es.map (·.2)).mapM (get doc) with
  | error e => rfl
  | ok rs =>
    refine ⟨_, rfl, by simp [multiObject, objectText], by rw [multiObject, mkOwned_kind]; decide, by
      simp only [multiObject, mkOwned_json, members]; rfl, fun hs => ?_⟩
    have := getIn_same (v := multiObject (es.map (·.1)) rs) (mkOwned_oneText _ _ _) P.rest
    rw [multiObject, mkOwned_json] at this
    simp only [ok_bind, goOn, if_neg hs]
    exact this

/-- C68: a multipath that does not end with the bracket of its kind gives nothing, whatever the rest
of the path is. -/
theorem C68_wrong (hk : P.comp.head? = some (c! '[') ∧ P.comp.getLast? ≠ some (c! ']') ∨
      P.comp.head? = some (c! '{') ∧ P.comp.getLast? ≠ some (c! '}')) : get doc path = .ok Value.default :=
  get_wrong hc doc hk

omit hc in
/-- C68: every modifier and multipath is of one of these kinds. -/
theorem C68_kinds (hk : Computes P.comp) : P.comp.head? = some (c! '@') ∨ (∃ s, P.comp = c! '[' :: (s ++ b!"]")) ∨
    (∃ s, P.comp = c! '{' :: (s ++ b!"}")) ∨ P.comp.head? = some (c! '[') ∧ P.comp.getLast? ≠ some (c! ']') ∨
    P.comp.head? = some (c! '{') ∧ P.comp.getLast? ≠ some (c! '}') := by
  obtain ⟨c, h1, h2⟩ := hk
  cases hp : P.comp with
  | nil => rw [hp] at h1; cases h1
  | cons d t =>
    rw [hp] at h1
    simp only [List.head?_cons, Option.mem_some_iff] at h1
    subst h1
    have split : ∀ x : UInt8, d ≠ x → (d :: t).getLast? = some x → ∃ s, t = s ++ [x] := fun x hx hl => by
      cases t with
      | nil => simp only [List.getLast?_singleton, Option.some.injEq] at hl; exact absurd hl hx
      | cons y t =>
        rw [List.getLast?_cons_cons] at hl
        exact List.getLast?_eq_some_iff.1 hl
    simp only [List.mem_cons, List.not_mem_nil, or_false] at h2
    rcases h2 with rfl | rfl | rfl
    · exact .inl rfl
    · by_cases hl : (c! '[' :: t).getLast? = some (c! ']')
      · obtain ⟨s, rfl⟩ := split _ (by decide) hl
        exact .inr (.inl ⟨s, rfl⟩)
      · exact .inr (.inr (.inr (.inl ⟨rfl, hl⟩)))
    · by_cases hl : (c! '{' :: t).getLast? = some (c! '}')
      · obtain ⟨s, rfl⟩ := split _ (by decide) hl
        exact .inr (.inr (.inl ⟨s, rfl⟩))
      · exact .inr (.inr (.inr (.inr ⟨rfl, hl⟩)))

end

/-! ### Concrete cases -/

/-- A closing bracket and a quote without a partner, a colon in a name, a bracket that is never closed. -/
example : EntriesOf b!"a],\"b\",c:d:e.f,g(,h" [(b!"_", b!"a]"), (b!"\"b\"", b!"\"b\""), (b!"c:d", b!"e.f"), (b!"_", b!"g(,h")] :=
  (C68_each _ _ 0 0).1 (by decide +kernel)

/-- An entry that ends with a backslash is lost, here because the multipath is never closed. -/
example : CutUp b!"[a,b\\]" ⟨b!"[a,b\\]", false, false, 0, 0, []⟩ ∧ EntriesOf b!"a,b\\" [(b!"a", b!"a")] ∧
    (get b!"{\"a\":1,\"b\":2}" b!"[a,b\\]" >>= fun v => .ok v.json) = .ok b!"[1]" :=
  ⟨(C64_exact b!"[a,b\\]" ⟨b!"[a,b\\]", false, false, 0, 0, []⟩).1 (by decide +kernel), (C68_each _ _ 0 0).1 (by decide +kernel), by decide +kernel⟩

/-- With the wrong bracket the rest does not count either, though `[x]` alone finds an empty array in nothing. -/
example : CutUp b!"[a}.[x]" ⟨b!"[a}", false, false, c! '.', 0, b!"[x]"⟩ ∧ get b!"{\"a\":1}" b!"[a}.[x]" = .ok Value.default ∧
    (get [] b!"[x]" >>= fun v => .ok v.json) = .ok b!"[]" := by
  have h := (C64_exact b!"[a}.[x]" ⟨b!"[a}", false, false, c! '.', 0, b!"[x]"⟩).1 (by decide +kernel)
  exact ⟨h, C68_wrong h _ (.inl (by decide)), by decide +kernel⟩

/-- What follows the argument belongs to it; an escaped name is not a name; the argument of `@this` is ignored. -/
example : CallOf b!"@pretty:{\"a\":1}x.y" 7 b!"pretty" b!"{\"a\":1}x.y" ∧
    CutUp b!"@pretty:{\"a\":1}x.y" ⟨b!"@pretty:{\"a\":1}x.y", false, false, 0, 7, b!"x.y"⟩ ∧
    (get b!"{\"a\":1}" b!"@th\\is" >>= fun v => .ok v.exists) = .ok false ∧
    (get b!"{\"a\":1}" b!"@this:[x}.a" >>= fun v => .ok v.json) = .ok b!"1" :=
  ⟨.arg (n := b!"pretty"), (C64_exact b!"@pretty:{\"a\":1}x.y" ⟨_, _, _, _, _, _⟩).1 (by decide +kernel), by decide +kernel, by decide +kernel⟩

end Gjson
