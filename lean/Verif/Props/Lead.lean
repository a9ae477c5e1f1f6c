import Verif.Lemmas.LeadText
import Verif.Props.Prefix
/-
C58: `parse(text).get(path)` is `get(text, path)`, for every path: modifiers,
multipaths, queries and `..` included. And whitespace in front of a text does not
matter to any path, whether the text is JSON or not.

Results are compared with `SameRes` (`Verif/Lemmas/Pipe.lean`): the same failure, or
values that no accessor tells apart.
-/
namespace Gjson
open Spec

/-- C58: whitespace in front of a text, JSON or not, does not matter to any path. -/
theorem C58_leading {w : Bytes} (hw : Ws w) (text path : Bytes) : SameRes (get (w ++ text) path) (get text path) :=
  get_lead hw text path

example : (get b!" \n\t{\"a\":[3,{\"b\":\"x\"}" b!"{a.0,a.@reverse,a.1|@ugly}" >>= fun v => .ok v.json) =
      (get b!"{\"a\":[3,{\"b\":\"x\"}" b!"{a.0,a.@reverse,a.1|@ugly}" >>= fun v => .ok v.json) ∧
    (get b!"{\"a\":[3,{\"b\":\"x\"}]}" b!"{a.0,a.@reverse,a.1|@ugly}" >>= fun v => .ok v.json) =
      .ok b!"{\"0\":3,\"@reverse\":[{\"b\":\"x\"},3],\"@ugly\":{\"b\":\"x\"}}" ∧
    (get b!"\n\n1\n2\n3" b!"..#" >>= fun v => .ok v.json) = .ok b!"3" := by
  decide +kernel

/-- C58: `pretty`, `ugly` and `valid` do not see whitespace in front either. -/
theorem C58_formats {w : Bytes} (hw : Ws w) (text : Bytes) (o : PrettyOptions) :
    prettyOptions (w ++ text) o = prettyOptions text o ∧ ugly (w ++ text) = ugly text ∧ valid (w ++ text) = valid text := by
  refine ⟨pretty_lead (fun c hc => ws_le (hw c hc)) text o, by rw [ugly_eq, ugly_eq, pUgly_lead hw], ?_⟩
  rw [valid_eq_pText, valid_eq_pText]
  congr 1
  rw [Bool.eq_iff_iff, pText_iff, pText_iff]; exact jsonText_lead hw

example : (prettyOptions b!"  {\"b\":1,\"a\":2" { PrettyOptions.default with sortKeys := true }) =
      (prettyOptions b!"{\"b\":1,\"a\":2" { PrettyOptions.default with sortKeys := true }) ∧
    (prettyOptions b!"  {\"b\":1,\"a\":2}" { PrettyOptions.default with sortKeys := true }) =
      .ok b!"{\n  \"a\": 2,\n  \"b\": 1\n}\n" := by decide +kernel

/-- C58: a document that is no array or object, with any whitespace around it, gives
the same for every path. -/
theorem C58_scalar {v d1 d2 : Bytes} (hv : IsValue v) (hk : kindOf v ≠ .object ∧ kindOf v ≠ .array) (h1 : Padded v d1)
    (h2 : Padded v d2) (path : Bytes) : SameRes (get d1 path) (get d2 path) := by
  have key : ∀ {d : Bytes}, Padded v d → SameRes (get d path) (get v path) := by
    rintro _ ⟨a, b, ha, hb, rfl⟩
    exact (get_lead ha _ path).trans (get_trail hv hk hb path)
  exact (key h1).trans (key h2).symm

example : IsValue b!"true" ∧ Padded b!"true" b!" true\n" ∧
    (get b!" true\n" b!"[@this,@pretty,@valid]" >>= fun v => .ok v.json) = .ok b!"[true,true,true]" :=
  ⟨.true, ⟨b!" ", b!"\n", by decide, by decide, rfl⟩, by decide +kernel⟩

/-- C58: looking up in the parsed document is looking up in the document, for every
document and every path. -/
theorem C58_parse_get {doc : Bytes} (h : JsonText doc) (path : Bytes) :
    ∃ v, parse doc = .ok v ∧ SameRes (v.get path) (get doc path) := by
  obtain ⟨w1, t, w2, rfl, u1, u2, ht⟩ := h
  refine ⟨_, parse_eq _, (getIn_same (pParse_oneText _ _) path).trans ?_⟩
  rw [pParse_ws u1]
  by_cases hk : kindOf t = .object ∨ kindOf t = .array
  · rw [(pParse_cont (r := w2) ht hk _).1, mkVal_json]
    exact (get_lead u1 _ path).symm
  · have hk' : kindOf t ≠ .object ∧ kindOf t ≠ .array := by rw [not_or] at hk; exact hk
    rw [pParse_scalar ht (Follow.ws' u2) hk', leafVal_json]
    exact C58_scalar ht hk' (padded_self t) ⟨w1, w2, u1, u2, rfl⟩ path

/-- C58 beyond documents: any text that opens an array or object, JSON or not. -/
theorem C58_parse_get_open {w rest : Bytes} {c : UInt8} (hw : Ws w) (hc : c = c! '{' ∨ c = c! '[') (path : Bytes) :
    ∃ v, parse (w ++ c :: rest) = .ok v ∧ v.json = c :: rest ∧ SameRes (v.get path) (get (w ++ c :: rest) path) := by
  have hj : (pParse 0 (w ++ c :: rest)).json = c :: rest := by
    rw [pParse_ws hw]
    rcases hc with rfl | rfl
    · rw [pParse, if_neg (by decide), if_pos rfl, mkVal_json]
    · rw [pParse, if_neg (by decide), if_neg (by decide), if_pos rfl, mkVal_json]
  refine ⟨_, parse_eq _, hj, (getIn_same (pParse_oneText _ _) path).trans ?_⟩
  rw [hj]
  exact (get_lead hw _ path).symm

example : (parse b!"\t[1,[2,3],{\"a\":" >>= fun v => v.get b!"[0,@flatten,1.#]" >>= fun v => .ok v.json) = .ok b!"[1,[1,2,3],2]" ∧
    (get b!"\t[1,[2,3],{\"a\":" b!"[0,@flatten,1.#]" >>= fun v => .ok v.json) = .ok b!"[1,[1,2,3],2]" := by decide +kernel

/-- For other texts it is false: `parse` keeps the first value only, `..` sees all of them. -/
theorem C58_parse_get_limit : ¬ ∀ text path : Bytes, ∃ v, parse text = .ok v ∧ SameRes (v.get path) (get text path) := by
  intro h
  obtain ⟨v, h1, h2⟩ := h b!"1 2" b!"..1"
  have e1 : (parse b!"1 2" >>= fun v => v.get b!"..1" >>= fun r => .ok r.json) = .ok b!"" := by decide +kernel
  have e2 : (get b!"1 2" b!"..1" >>= fun r => .ok r.json) = .ok b!"2" := by decide +kernel
  rw [h1, ok_bind] at e1
  have := same_push h2 (f := Value.json) fun _ _ hs => hs.json
  rw [e1, e2] at this
  exact absurd this (by decide)

end Gjson
