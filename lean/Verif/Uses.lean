import Verif.Lemmas.NotJson
import Verif.Props.Numbers
import Verif.Props.Compare
import Verif.Props.Enumerate
import Verif.Props.Format
import Verif.Props.Lookup
import Verif.Props.Modifiers
import Verif.Props.Multi
import Verif.Props.Query
import Verif.Props.Results
import Verif.Props.Strings
import Verif.Props.Total
import Verif.Props.Valid
import Verif.Props.Values
import Verif.Props.Layout
import Verif.Props.Search
import Verif.Props.Truth
import Verif.Props.Convert
import Verif.Props.Prefix
import Verif.Props.Space
import Verif.Props.Order
import Verif.Props.Ink
import Verif.Props.Work
import Verif.Props.Depth
import Verif.Props.Open
import Verif.Props.Size
import Verif.Props.Lead
import Verif.Props.Tokens
import Verif.Props.Listed
import Verif.Props.Edit
import Verif.Props.OwnText
import Verif.Props.Pairs
import Verif.Props.QueryParts
import Verif.Props.EveryPath
import Verif.Props.EveryCall
import Verif.Props.Any
import Verif.Props.Whole
import Verif.Props.Harmless
import Verif.Props.EveryText
import Verif.Props.AnyOrder
/-
Concrete outcomes drawn from the property theorems, one for each seeded bug of
`seeded/LOG.jsonl` (whose id is given). The outcome is never obtained by running
the function in question: the theorem named in the proof forces it. A changed
program with a different outcome therefore contradicts that theorem's statement,
whatever happens to the helper lemmas. Facts about the specification only (such as
that a text is an array) may be shown in any way.
-/
namespace Gjson.Uses
open Spec

theorem json_of {r : Res Value} {x : Bytes} (h : ∃ w, r = .ok w ∧ w.json = x) :
    r.toOption.map Value.json = some x := by
  obtain ⟨w, rfl, rfl⟩ := h; rfl

theorem exists_of {r : Res Value} {x : Bool} (h : ∃ w, r = .ok w ∧ w.exists = x) :
    r.toOption.map Value.exists = some x := by
  obtain ⟨w, rfl, rfl⟩ := h; rfl

theorem pad (t : Bytes) : Padded t t := ⟨[], [], by simp [Ws], by simp [Ws], by simp⟩

theorem arr {vs : List Bytes} (h : ∀ v ∈ vs, valid v = .ok true ∧ trimmed v = true) : IsArray (arrayText vs) vs :=
  C35_array_isArray fun v hv => value_of_valid (h v hv).1 (h v hv).2

theorem m01 : valid b!"01" ≠ .ok true := fun h => text_zero ((C01_valid_iff_rfc8259 _).1 h) (by decide)

theorem m02 : valid [0x22, 0x1f, 0x22] ≠ .ok true := fun h =>
  absurd ((text_bytes ((C01_valid_iff_rfc8259 _).1 h)).1 0x1f (by decide)) (by decide)

theorem m03 : valid b!"[;2222222222222222222]" ≠ .ok true := fun h =>
  absurd ((text_bytes ((C01_valid_iff_rfc8259 _).1 h)).2 (by decide) (c! ';') (by decide)) (by unfold Plain; decide)

theorem m04 : valid b!"{}x" ≠ .ok true := fun h =>
  absurd (text_last (t := b!"{}") ((C01_valid_iff_rfc8259 _).1 h)) (by decide)

theorem m05 : get b!"\"aaaaaaa" b!"@this" ≠ .error .oob := C04_no_oob _ _

theorem m07 : (get b!"[5,6]" b!"1").toOption.map Value.json = some b!"6" := by
  obtain ⟨w, h1, _, h2, _⟩ := C07_element (n := 1) (v := b!"6") (arr (vs := [b!"5", b!"6"]) (by decide +kernel)) (pad _) (by decide) rfl
  exact json_of ⟨w, h1, h2⟩

theorem m08 : (get b!"[null,6]" b!"#").toOption.map Value.json = some b!"2" := by
  obtain ⟨w, h1, _, _, h2, _⟩ := C08_count (arr (vs := [b!"null", b!"6"]) (by decide +kernel)) (pad _)
  exact json_of ⟨w, h1, h2⟩

theorem m09 : (get b!"{\"a\":1,\"a\":2}" b!"a").toOption.map Value.json = some b!"1" := by
  have ho : IsObject b!"{\"a\":1,\"a\":2}" ([] ++ (b!"\"a\"", b!"1") :: [(b!"\"a\"", b!"2")]) :=
    C35_object_isObject (kvs := [(b!"a", b!"1"), (b!"a", b!"2")]) (by
      simp only [List.forall_mem_cons]
      exact ⟨value_of_valid (by decide +kernel) (by decide), value_of_valid (by decide +kernel) (by decide), by simp⟩)
  obtain ⟨w, h1, _, h2, _⟩ := C06_member_partial (k := b!"a") ho (pad _) (by decide)
    ⟨b!"a", rfl, .plain (by decide) (by decide) (by decide) .nil⟩ (by simp)
  exact json_of ⟨w, h1, h2⟩

theorem m17 : pmatch b!"a*" b!"a" = .ok true := by
  obtain ⟨b, h1, h2⟩ := C16_pmatch_partial b!"a*" b!"a" (by decide)
  rw [h1, h2.2 (.plain (by decide) (by decide) (by decide) (.star [] .nil))]

theorem m19 : (get b!"1 2" b!"..#").toOption.map Value.json = some b!"2" := by
  have hl : JsonLines b!"1 2" [b!"1", b!"2"] := .cons (w := []) (v := b!"1") (c := c! ' ') (r := b!"2") (by decide)
    (value_of_valid (by decide +kernel) (by decide)) (by decide)
    (.last (w := []) (v := b!"2") (by decide) (value_of_valid (by decide +kernel) (by decide)))
  obtain ⟨w, h1, _, _, h2, _⟩ := C18_count hl
  exact json_of ⟨w, h1, h2⟩

theorem m20 : (get b!"[-0]" b!"0").toOption.map Value.json = some b!"-0" := by
  obtain ⟨w, h1, _, h2, _⟩ := C07_element (n := 0) (v := b!"-0") (arr (vs := [b!"-0"]) (by decide +kernel)) (pad _) (by decide) rfl
  exact json_of ⟨w, h1, h2⟩

theorem m21 : (get b!"[null]" b!"0").toOption.map Value.exists = some true := by
  obtain ⟨w, h1, h2, _⟩ := C07_element (n := 0) (v := b!"null") (arr (vs := [b!"null"]) (by decide +kernel)) (pad _) (by decide) rfl
  exact exists_of ⟨w, h1, h2⟩

theorem m24 : unescape b!"\"\\u0800\"" = .ok b!"ࠀ" :=
  C23_unescape_decodes_partial (b := b!"\\u0800") (t := b!"ࠀ")
    (.bmp (h1 := c! '0') (h2 := c! '8') (h3 := c! '0') (h4 := c! '0') (t := []) (by decide) (by decide) (by decide) (by decide)
      (by decide) .nil)

theorem m25 : Value.i64 ⟨b!"9007199254740993", [], [], INFO_NUMBER, none⟩ = .ok 9007199254740993 :=
  C24_i64_number _ 9007199254740993 (by decide) (by decide) (by decide) (by decide +kernel)

theorem m28 : Value.cmp ⟨b!"true", [], [], INFO_TRUE, none⟩ ⟨b!"\"\"", [], [], INFO_STRING, none⟩ = .ok .gt :=
  (C26_kind_first _ _ (by decide)).trans (by decide)

theorem m14 : queryMatches ⟨b!"\"a\"", [], [], INFO_STRING, none⟩ b!">=" b!"a" = .ok true := by
  obtain ⟨b, h1, h2⟩ := C15_string (v := ⟨b!"\"a\"", [], [], INFO_STRING, none⟩) (s := b!"a") (rh := b!"a") (r := b!"a")
    (by decide) (by decide) (by decide) (.inr ⟨by decide, rfl⟩) (by unfold NoTilde; decide) .ge (by decide)
  rw [show b!">=" = Op.ge.name from rfl, h1, h2.2 (by simp [Op.onStrings])]

theorem m16 : pmatch b!"A" b!"a" = .ok false := by
  obtain ⟨b, h1, h2⟩ := C16_pmatch_partial b!"A" b!"a" (by decide)
  cases b with
  | false => exact h1
  | true => have := h2.1 rfl; cases this

theorem m22 : unescape (escape [13]) = .ok [13] := C21_unescape_escape _

theorem m23 : valid (escape [0x1a]) = .ok true := (C22_escape_valid _).2

theorem m26 : Value.i16 ⟨b!"32768", [], [], INFO_NUMBER, none⟩ = .ok 32767 :=
  ((C25_saturate_partial _).1 32768 (by decide +kernel)).1

theorem m34 : (pretty b!"1E5").toOption.map tokens = some [b!"1E5"] := by
  obtain ⟨out, _, h1, h2, _⟩ := C31_ugly (t := b!"1E5") ((C01_valid_iff_rfc8259 _).1 (by decide +kernel)) (o := PrettyOptions.default)
    (by decide) (by decide) rfl
  rw [show pretty b!"1E5" = .ok out from h1]
  show some (tokens out) = _
  rw [h2]; decide +kernel

theorem m38 : (get b!"[" b!"@valid").toOption.map Value.exists = some false :=
  exists_of (C34_invalid ((C01_valid_false_iff _).1 (by decide +kernel)) (.bare (by decide)))

theorem m39 : Value.bool ⟨b!"\"T\"", [], [], INFO_STRING, none⟩ = .ok true := (C39_bool _).1 (by decide)

theorem m44 : Value.u64 ⟨b!"9223372036854775809", [], [], INFO_NUMBER, none⟩ = .ok 9223372036854775809 :=
  C24_u64_number _ 9223372036854775809 (by decide) (by decide) (by decide +kernel)

theorem val {v : Bytes} (h : valid v = .ok true ∧ trimmed v = true) : IsValue v := value_of_valid h.1 h.2

theorem obj {kvs : List (Bytes × Bytes)} (h : ∀ m ∈ kvs, valid m.2 = .ok true ∧ trimmed m.2 = true) :
    IsObject (objectText (kvs.map fun m => (escape m.1, m.2))) (kvs.map fun m => (escape m.1, m.2)) :=
  C35_object_isObject fun m hm => val (h m hm)

theorem m10 : (get b!"{\"\\u0061\":1}" b!"a").toOption.map Value.exists = some true := by
  have ho : IsObject b!"{\"\\u0061\":1}" ([] ++ (b!"\"\\u0061\"", b!"1") :: []) := by
    refine .inr ⟨[⟨[], b!"\"\\u0061\"", [], [], b!"1", []⟩], by simp, ?_, ?_, rfl, rfl⟩
    · intro m hm; simp at hm; subst hm
      exact ⟨by decide, ⟨b!"\\u0061", .uni (by decide) (by decide) (by decide) (by decide) .nil, rfl⟩, by decide, by decide, by decide⟩
    · intro m hm; simp at hm; subst hm; exact val (by decide +kernel)
  obtain ⟨w, h1, h2, _⟩ := C06_member_partial (k := b!"a") ho (pad _) (by decide)
    ⟨b!"\\u0061", rfl, .bmp (h1 := c! '0') (h2 := c! '0') (h3 := c! '6') (h4 := c! '1') (t := []) (by decide) (by decide) (by decide)
      (by decide) (by decide) .nil⟩ (by simp)
  exact exists_of ⟨w, h1, h2⟩

theorem m15 : queryMatches ⟨b!"false", [], [], INFO_FALSE, none⟩ b!"<=" b!"false" = .ok true :=
  C15_bool_partial (v := ⟨b!"false", [], [], INFO_FALSE, none⟩) (rh := b!"false") (x := false) (y := false) (by decide) (by decide)
    (.inr ⟨by decide, rfl⟩) .le (by decide)

theorem m18 : (get b!"{\"a.b\":1}" b!"a\\.b").toOption.map Value.json = some b!"1" := by
  obtain ⟨w, h1, h2, _⟩ := C17_escapeKey_partial (k := b!"a.b") (kl := b!"\"a.b\"") (v := b!"1") (before := []) (after := [])
    (obj (kvs := [(b!"a.b", b!"1")]) (by decide +kernel)) (pad _) (by decide) ⟨_, rfl, by decide +kernel⟩ (by simp)
  exact json_of ⟨w, h1, h2⟩

theorem m27 : Value.cmp ⟨b!"1", [], [], INFO_NUMBER, none⟩ ⟨b!"1.0", [], [], INFO_NUMBER, none⟩ ≠ .ok .lt := fun h =>
  absurd ((C26_numbers _ _ _ _ (by decide) (by decide) rfl rfl).1.1 h) (by decide +kernel)

theorem m33 : ugly b!"[\"\\\\\", 1]" = .ok b!"[\"\\\\\",1]" := by
  obtain ⟨out, h1, h2, _⟩ := C30_tokens (t := b!"[\"\\\\\", 1]") ((C01_valid_iff_rfc8259 _).1 (by decide +kernel))
  rw [h1, h2]; decide +kernel

theorem m40 : (parse b!"\t1").toOption.map Value.kind = some .number := by
  obtain ⟨_, v, _, h1, _, _, h2, _⟩ := C40_parse b!"1" b!"\t" [] (val (by decide +kernel)) (by decide) (by decide)
  rw [show b!"\t1" = b!"\t" ++ (b!"1" ++ []) from rfl, h1]
  exact congrArg some h2

theorem m43 : ((get b!"\"\\n\"" b!"@this").toOption.map Value.str) = some (.ok b!"\n") := by
  obtain ⟨p, v, h1, h2, h3⟩ := C34_this b!"\"\\n\"" (a := []) (m := b!"@this") (.bare (by decide))
  obtain ⟨w, g1, _, g2⟩ := C23_str_decodes_partial (b := b!"\\n") (t := b!"\n") (.esc (by decide) .nil) [] [] (by decide) (by decide)
  rw [show ([] ++ (c! '"' :: (b!"\\n" ++ [c! '"'])) ++ []) = b!"\"\\n\"" from rfl, h1] at g1
  cases g1
  rw [h2]; exact congrArg some (h3.str.trans g2)

theorem json_same {a b : Res Value} (h : SameRes a b) : a.toOption.map Value.json = b.toOption.map Value.json := by
  cases h with
  | ok h => exact congrArg some h.json
  | error e => rfl

theorem str_same {a b : Res Value} (h : SameRes a b) : a.toOption.map Value.str = b.toOption.map Value.str := by
  cases h with
  | ok h => exact congrArg some h.str
  | error e => rfl

theorem m11 : (get b!"[7]" b!"0|@this").toOption.map Value.json = some b!"7" := by
  have h := C12_pipe_text b!"[7]" b!"@this" (ks := [b!"0"]) (by
    intro k hk; simp at hk; subst hk; exact PlainKey.selector (by decide) (by decide)) (by simp)
  obtain ⟨w, h1, _, h2, _⟩ := C07_element (n := 0) (v := b!"7") (arr (vs := [b!"7"]) (by decide +kernel)) (pad _) (by decide) rfl
  refine (json_same h).trans ?_
  rw [show get b!"[7]" (dotPath [b!"0"]) = .ok w from h1, ok_bind, h2]
  decide +kernel

theorem m42 : (get b!"[{\"a\":\"\\n\"}]" b!"0|a").toOption.map Value.str = some (.ok b!"\n") := by
  have h := C12_pipe_text b!"[{\"a\":\"\\n\"}]" b!"a" (ks := [b!"0"]) (by
    intro k hk; simp at hk; subst hk; exact PlainKey.selector (by decide) (by decide)) (by simp)
  obtain ⟨w, h1, _, h2, _⟩ := C07_element (n := 0) (v := b!"{\"a\":\"\\n\"}")
    (arr (vs := [b!"{\"a\":\"\\n\"}"]) (by decide +kernel)) (pad _) (by decide) rfl
  refine (str_same h).trans ?_
  rw [show get b!"[{\"a\":\"\\n\"}]" (dotPath [b!"0"]) = .ok w from h1, ok_bind, h2]
  decide +kernel

theorem jsonx {e p : Bytes} {w : Value} {x : Bool × Bytes} (h : get e p = .ok w)
    (hx : (get e p).toOption.map (fun w => (w.exists, w.json)) = some x) : w.exists = x.1 ∧ w.json = x.2 := by
  rw [h] at hx; cases hx; exact ⟨rfl, rfl⟩

theorem m12 : (get b!"[{\"a\":1},2,{\"a\":3}]" b!"#.a").toOption.map Value.json = some b!"[1,3]" := by
  obtain ⟨ws, hw, w, h1, _, _, h2, _⟩ := C13_map (ks := [b!"a"])
    (.array (arr (vs := [b!"{\"a\":1}", b!"2", b!"{\"a\":3}"]) (by decide +kernel)) (pad _))
    (by intro k hk; simp at hk; subst hk; exact PlainKey.selector (by decide) (by decide)) (by simp)
  refine json_of ⟨w, h1, h2.trans ?_⟩
  rcases hw with _ | ⟨a, hw⟩
  rcases hw with _ | ⟨b, hw⟩
  rcases hw with _ | ⟨c, hw⟩
  cases hw
  have ha := jsonx (x := (true, b!"1")) a (by decide +kernel)
  have hb := jsonx (x := (false, [])) b (by decide +kernel)
  have hc := jsonx (x := (true, b!"3")) c (by decide +kernel)
  simp only [found, List.filter_cons, ha.1, hb.1, hc.1, if_true, Bool.false_eq_true, if_false, List.filter_nil, List.map_cons, ha.2, hc.2, List.map_nil]
  decide

theorem m41 : (get b!"[{\"a\":{\"b\":1}}]" b!"#.a.b").toOption.map Value.json = some b!"[1]" := by
  obtain ⟨ws, hw, w, h1, _, _, h2, _⟩ := C13_map (ks := [b!"a", b!"b"])
    (.array (arr (vs := [b!"{\"a\":{\"b\":1}}"]) (by decide +kernel)) (pad _))
    (by intro k hk; simp at hk; rcases hk with rfl | rfl <;> exact PlainKey.selector (by decide) (by decide)) (by simp)
  refine json_of ⟨w, h1, h2.trans ?_⟩
  rcases hw with _ | ⟨a, hw⟩
  cases hw
  have ha := jsonx (x := (true, b!"1")) a (by decide +kernel)
  simp only [found, List.filter_cons, ha.1, if_true, List.filter_nil, List.map_cons, ha.2, List.map_nil]
  decide

theorem m13 : (get b!"[1,2,3]" b!"#(>1)").toOption.map Value.json = some b!"2" := by
  obtain ⟨w, h1, h2, _⟩ := C14_first (q := b!">1") (lh := []) (op := some .gt) (rh := b!"1") (test := fun e => e ≠ b!"1")
    (.array (arr (vs := [b!"1", b!"2", b!"3"]) (by decide +kernel)) (pad _))
    (.compare (w1 := []) (lh := []) (w2 := []) (o := b!">") (w3 := []) (rh := b!"1") (w4 := []) (.plain (by decide) (by unfold Trimmed; decide))
      (.name .gt) (.plain (by decide) (by unfold Trimmed; decide)) (by simp [Blank]) (by simp [Blank]) (by simp [Blank]) (by simp [Blank]) (by decide))
    (by
      simp only [List.forall_mem_cons]
      exact ⟨⟨_, rfl, by decide +kernel⟩, ⟨_, rfl, by decide +kernel⟩, ⟨_, rfl, by decide +kernel⟩, by simp⟩)
  exact json_of ⟨w, h1, (h2 [b!"1"] b!"2" [b!"3"] rfl (by decide) (by decide)).2.1⟩

theorem m29 : (do (← parse b!"[1,2]").each (fun (s : Nat) _ _ => .ok (s + 1, false)) 0 : Res Nat) = .ok 1 := by
  obtain ⟨v, vals, h1, _, _, h2, _, _, h3⟩ := C27_array_each b!"[1,2]" _ _ (arr (vs := [b!"1", b!"2"]) (by decide +kernel)) (pad _)
  rw [h1, ok_bind, h3]
  cases vals with
  | nil => cases h2
  | cons a r => rfl

/-- The elements of a result which is an array. -/
theorem elems {r : Value} {out : Bytes} {vs : List Bytes} (h : SameAsText r out) (ha : IsArray out vs) :
    (r.array).toOption.map (fun l => l.map Value.json) = some vs := by
  obtain ⟨vals, h1, h2, hx⟩ := C27_each_value r out [] vs ha (h.2.1.trans (IsArray.kindOf ha)) (by rw [h.1, List.append_nil])
  clear ha hx
  rw [h1]
  refine congrArg some (?_ : vals.map Value.json = vs)
  clear h1
  revert h2
  generalize vs = us
  intro h2
  induction h2 with
  | nil => rfl
  | cons h _ ih => rw [List.map_cons, ih, h.1]

theorem m31 : (get b!"[1,2]" b!"@reverse" >>= Value.array).toOption.map (fun l => l.map Value.json) = some [b!"2", b!"1"] := by
  obtain ⟨r, out, h1, h2, h3⟩ := C29_array (arr (vs := [b!"1", b!"2"]) (by decide +kernel)) (pad _) (.bare (by decide))
  rw [show get b!"[1,2]" b!"@reverse" = .ok r from h1]
  exact elems h2 h3

theorem m36 : (get b!"[[1]]" b!"@flatten:{\"deep\":true}" >>= Value.array).toOption.map (fun l => l.map Value.json) = some [b!"1"] := by
  obtain ⟨r, out, h1, h2, h3⟩ := C32_deep_call (arr (vs := [b!"[1]"]) (by decide +kernel)) (pad _)
    (.splice (arr (vs := [b!"1"]) (by decide +kernel)) (.keep (by decide) .nil) .nil)
  rw [show b!"[[1]]" = arrayText [b!"[1]"] from rfl, h1]
  exact elems h2 h3

theorem m37 : (get b!"[{\"a\":1},{\"a\":2}]" b!"@join" >>= fun r => get r.json b!"a").toOption.map Value.json = some b!"2" := by
  have hk : KeyDenotes OddPlane b!"\"a\"" b!"a" := ⟨b!"a", rfl, .plain (by decide) (by decide) (by decide) .nil⟩
  obtain ⟨r, out, h1, h2, h3⟩ := C33_merge_partial (mss := [[(b!"\"a\"", b!"1")], [(b!"\"a\"", b!"2")]]) (dec := fun _ => b!"a")
    (arr (vs := [b!"{\"a\":1}", b!"{\"a\":2}"]) (by decide +kernel)) (pad _)
    (.take (obj (kvs := [(b!"a", b!"1")]) (by decide +kernel)) (.take (obj (kvs := [(b!"a", b!"2")]) (by decide +kernel)) .nil))
    (by intro m hm; simp at hm; rcases hm with rfl | rfl <;> exact hk)
  rw [show b!"[{\"a\":1},{\"a\":2}]" = arrayText [b!"{\"a\":1}", b!"{\"a\":2}"] from rfl, h1, ok_bind, h2.1]
  obtain ⟨w, g1, _, g2, _⟩ := C06_member_partial (k := b!"a") (kl := b!"\"a\"") (v := b!"2") (before := []) (after := []) h3 (pad _)
    (by decide) hk (by simp)
  exact json_of ⟨w, g1, g2⟩

theorem m35 : (prettyOptions b!"{\"a\":1,\"a\":2}" ⟨80, [], [], true⟩).toOption.map tokens =
    some [b!"{", b!"\"a\"", b!":", b!"1", b!",", b!"\"a\"", b!":", b!"2", b!"}"] := by
  have hs : StrLit b!"\"a\"" := ⟨b!"a", .plain (by decide) (by decide) (by decide) .nil, rfl⟩
  have hw : Ws [] := by simp [Ws]
  have hd : Denotes b!"{\"a\":1,\"a\":2}" (.obj [(b!"\"a\"", .leaf b!"1"), (b!"\"a\"", .leaf b!"2")]) :=
    .obj (ms := [(⟨[], b!"\"a\"", [], [], b!"1", []⟩, .leaf b!"1"), (⟨[], b!"\"a\"", [], [], b!"2", []⟩, .leaf b!"2")]) (by simp)
      (by simp only [List.forall_mem_cons]; exact ⟨⟨hw, hs, hw, hw, hw⟩, ⟨hw, hs, hw, hw, hw⟩, by simp⟩)
      (by
        simp only [List.forall_mem_cons]
        exact ⟨.leaf (val (by decide +kernel)) (by decide) (by decide), .leaf (val (by decide +kernel)) (by decide) (by decide), by simp⟩)
  obtain ⟨out, v', h1, h2, h3⟩ := C38_sorted_partial (o := ⟨80, [], [], true⟩) (pad _) hd hw hw rfl (by decide)
  rw [h1]
  show some (tokens out) = _
  rw [tokens_padded h2 h3]
  decide +kernel

theorem m45 : queryMatches ⟨b!"\"a\"", [], [], INFO_STRING, none⟩ b!"=" b!"\"\\u0061\"" = .ok true := by
  obtain ⟨b, h1, h2⟩ := C15_string (v := ⟨b!"\"a\"", [], [], INFO_STRING, none⟩) (s := b!"a") (rh := b!"\"\\u0061\"") (r := b!"a")
    (by decide) (by decide) (by decide)
    (.inl ⟨⟨b!"\\u0061", .uni (by decide) (by decide) (by decide) (by decide) .nil, rfl⟩, by decide, ⟨_, rfl, by decide +kernel⟩⟩)
    (by unfold NoTilde; decide) .eq (by decide)
  rw [show b!"=" = Op.eq.name from rfl, h1, h2.2 (by simp [Op.onStrings])]

/-- A number that is not the nearest one. -/
theorem not_nearest {t : Bytes} {q : ℚ} {k y : Nat} (hd : NumDenotes t false q) (hy : binary64.Has y)
    (hlt : |mag y - q| < |mag k - q|) : (parse t >>= Value.f64) ≠ .ok (.fin false k) := by
  obtain ⟨v, x, h1, _, _, h2, h3⟩ := C42_parse (w1 := []) (w2 := []) hd (by simp [Ws]) (by simp [Ws])
  rw [List.nil_append, List.append_nil] at h1
  rw [h1, ok_bind, h2]
  intro e
  simp only [Except.ok.injEq] at e
  subst e
  rcases h3 with ⟨_, k', e, _, h⟩ | ⟨_, e⟩
  · simp only [F64.fin.injEq, true_and] at e
    subst e
    exact absurd (h y hy).1 (not_le.2 hlt)
  · simp at e

theorem mag_shift (m a : Nat) (h : a ≤ 1074) : mag (m * 2 ^ a) = m / 2 ^ (1074 - a) := by
  unfold mag
  rw [Nat.cast_mul, Nat.cast_pow, show (1074 : Nat) = a + (1074 - a) by omega, pow_add, Nat.cast_ofNat,
    Nat.add_sub_cancel_left]
  have h1 : (2 : ℚ) ^ a ≠ 0 := by positivity
  rw [mul_comm ((m : ℚ)), mul_div_mul_left _ _ h1]

theorem f01 : (parse b!"1.5" >>= Value.f64) ≠ .ok (.fin false (150 * 2 ^ 1074)) :=
  not_nearest (q := 3 / 2) (y := 3 * 2 ^ 1073)
    ⟨[], b!"1", b!".5", [], rfl, rfl, .inr ⟨c! '1', [], rfl, by decide, by decide, by decide⟩,
      .inr ⟨b!"5", rfl, by decide, by decide⟩, .inl rfl, by
        rw [show decVal (b!"1" ++ (b!".5").drop 1) = 15 by decide, show expVal [] = 0 by decide,
          show ((b!".5").drop 1).length = 1 by decide]
        norm_num⟩
    (has_mul (by decide) (by decide) (by decide))
    (by rw [mag_shift _ _ (by omega), mag_shift _ _ (by omega)]; norm_num)

theorem f02 : (parse b!"9007199254740993.5" >>= Value.f64) ≠ .ok (.fin false (9007199254740992 * 2 ^ 1074)) :=
  not_nearest (q := 90071992547409935 / 10) (y := 4503599627370497 * 2 ^ 1075)
    ⟨[], b!"9007199254740993", b!".5", [], rfl, rfl, .inr ⟨c! '9', b!"007199254740993", rfl, by decide, by decide, by decide⟩,
      .inr ⟨b!"5", rfl, by decide, by decide⟩, .inl rfl, by
        rw [show decVal (b!"9007199254740993" ++ (b!".5").drop 1) = 90071992547409935 by decide, show expVal [] = 0 by decide,
          show ((b!".5").drop 1).length = 1 by decide]
        norm_num⟩
    (has_mul (by decide) (by decide) (by decide))
    (by
      rw [show 4503599627370497 * 2 ^ 1075 = (4503599627370497 * 2) * 2 ^ 1074 by rw [show (1075 : Nat) = 1 + 1074 from rfl, pow_add]; ring,
        mag_shift _ _ (by omega), mag_shift _ _ (by omega)]
      norm_num [abs_of_pos, abs_of_neg])

theorem f03 : (parse b!"1e-2" >>= Value.f64) ≠ .ok (.fin false (100 * 2 ^ 1074)) :=
  not_nearest (q := 1 / 100) (y := 0 * 2 ^ 1074)
    ⟨[], b!"1", [], b!"e-2", rfl, rfl, .inr ⟨c! '1', [], rfl, by decide, by decide, by decide⟩,
      .inl rfl, .inr ⟨c! 'e', b!"-", b!"2", rfl, .inl rfl, .inr (.inr rfl), by decide, by decide⟩, by
        rw [show decVal (b!"1" ++ ([] : Bytes).drop 1) = 1 by decide, show expVal b!"e-2" = -2 by decide]
        norm_num⟩
    (has_mul (by decide) (by decide) (by decide))
    (by rw [mag_shift _ _ (by omega), mag_shift _ _ (by omega)]; norm_num [abs_of_pos, abs_of_neg])

theorem p01 : Value.default.f64 = .ok (.fin false 0) := C20_default_neutral.2.2.2.2.2.2.2.2.2.2.2.2.1

theorem p02 : (parse b!"\"INFINITY\"" >>= Value.f64) = .ok (.inf false) := by
  have hb : StrBody b!"INFINITY" := (by repeat first | exact .nil | refine .plain (by decide) (by decide) (by decide) ?_)
  have hs : Shown b!"INFINITY" b!"INFINITY" := by
    repeat first | exact .nil | refine .plain (by decide) (by decide) (by decide) ?_
  obtain ⟨t, _, h2, _, v, h3, _, h4⟩ := C47_shown hb (w1 := []) (w2 := []) (by simp [Ws]) (by simp [Ws])
  obtain ⟨v', s, x, n, m, g1, _, g2, g3, g4, _⟩ := C46_string hb (w1 := []) (w2 := []) (by simp [Ws]) (by simp [Ws])
  have e : v' = v := by
    have e : (Except.ok v' : Res Value) = .ok v := g1.symm.trans h3
    cases e; rfl
  subst e
  rw [h4] at g2
  cases g2
  rw [← h2 _ hs] at g4
  obtain ⟨y, hy⟩ := (C46_determined b!"INFINITY").1
  have hx : x = .inf false := by
    rw [(hy x).1 g4, (hy (.inf false)).1 (.inl ⟨[], false, b!"INFINITY", rfl, .inl rfl, .inr (.inl ⟨.inr (by simp [AnyCase]), rfl⟩)⟩)]
  rw [show parse b!"\"INFINITY\"" = .ok v' from g1, ok_bind, g3, hx]

theorem p03 : unescape b!"\"\\ud800\\ue000\"" = .ok [0xef, 0xbf, 0xbd] := by
  have hs : Shown b!"\\ud800\\ue000" ([0xef, 0xbf, 0xbd] ++ []) :=
    .broken (h1 := c! 'd') (h2 := c! '8') (h3 := c! '0') (h4 := c! '0') (g1 := c! 'e') (g2 := c! '0') (g3 := c! '0') (g4 := c! '0')
      (by decide) (by decide) (by decide) (by decide) (by decide) (by decide) (by decide) (by decide) (by unfold IsSurrogate; decide) (by unfold IsPair; decide) .nil
  obtain ⟨t, _, h2, h3, _⟩ := C47_shown (b := b!"\\ud800\\ue000")
    (.uni (by decide) (by decide) (by decide) (by decide) (.uni (by decide) (by decide) (by decide) (by decide) .nil))
    (w1 := []) (w2 := []) (by simp [Ws]) (by simp [Ws])
  rw [← h2 _ hs] at h3
  exact h3

theorem num {t : Bytes} (h : valid t = .ok true ∧ trimmed t = true ∧ kindOf t = .number) : Denotes t (.leaf t) :=
  .leaf (val ⟨h.1, h.2.1⟩) (by rw [h.2.2]; decide) (by rw [h.2.2]; decide)

theorem two {k1 k2 v1 v2 : Bytes} {d1 d2 : Doc} (h1 : StrLit k1) (h2 : StrLit k2) (g1 : Denotes v1 d1) (g2 : Denotes v2 d2) :
    Denotes (objectText [(k1, v1), (k2, v2)]) (.obj [(k1, d1), (k2, d2)]) := by
  have hw : Ws [] := by simp [Ws]
  have := Denotes.obj (ms := [(⟨[], k1, [], [], v1, []⟩, d1), (⟨[], k2, [], [], v2, []⟩, d2)]) (by simp)
    (by simp only [List.forall_mem_cons]; exact ⟨⟨hw, h1, hw, hw, hw⟩, ⟨hw, h2, hw, hw, hw⟩, by simp⟩)
    (by simp only [List.forall_mem_cons]; exact ⟨g1, g2, by simp⟩)
  simpa [objectText, commaSep, membersText, Member.text] using this

theorem one {k1 v1 : Bytes} {d1 : Doc} (h1 : StrLit k1) (g1 : Denotes v1 d1) :
    Denotes (objectText [(k1, v1)]) (.obj [(k1, d1)]) := by
  have hw : Ws [] := by simp [Ws]
  have := Denotes.obj (ms := [(⟨[], k1, [], [], v1, []⟩, d1)]) (by simp)
    (by simp only [List.forall_mem_cons]; exact ⟨⟨hw, h1, hw, hw, hw⟩, by simp⟩)
    (by simp only [List.forall_mem_cons]; exact ⟨g1, by simp⟩)
  simpa [objectText, commaSep, membersText, Member.text] using this

theorem items {es : List (Bytes × Doc)} (hne : es ≠ []) (h : ∀ e ∈ es, Denotes e.1 e.2) :
    Denotes (arrayText (es.map (·.1))) (.arr (es.map (·.2))) := by
  have hw : Ws [] := by simp [Ws]
  have := Denotes.arr (es := es.map fun e => (⟨[], e.1, []⟩, e.2)) (by simpa using hne)
    (by intro e he; obtain ⟨x, _, rfl⟩ := List.mem_map.1 he; exact ⟨hw, hw⟩)
    (by intro e he; obtain ⟨x, hx, rfl⟩ := List.mem_map.1 he; exact h x hx)
  have e : ∀ l : List (Bytes × Doc), elemsText (l.map fun x => ⟨[], x.1, []⟩) = commaSep (l.map (·.1)) := by
    intro l
    induction l with
    | nil => rfl
    | cons a r ih =>
      cases r with
      | nil => simp [elemsText, Elem.text, commaSep]
      | cons b r => simpa [elemsText, Elem.text, commaSep] using ih
  simpa [arrayText, ← e, List.map_map, Function.comp_def] using this

theorem lit_a : StrLit b!"\"a\"" := ⟨b!"a", .plain (by decide) (by decide) (by decide) .nil, rfl⟩
theorem lit_b : StrLit b!"\"b\"" := ⟨b!"b", .plain (by decide) (by decide) (by decide) .nil, rfl⟩

theorem p04 : (prettyOptions b!"[{\"b\":1,\"a\":2}]" ⟨80, [], [], true⟩).toOption.map tokens =
    some [b!"[", b!"{", b!"\"a\"", b!":", b!"2", b!",", b!"\"b\"", b!":", b!"1", b!"}", b!"]"] := by
  have hd := items (es := [(b!"{\"b\":1,\"a\":2}", _)]) (by simp) (by
    simp only [List.forall_mem_cons]
    exact ⟨two lit_b lit_a (num (t := b!"1") (by decide +kernel)) (num (t := b!"2") (by decide +kernel)), by simp⟩)
  obtain ⟨out, v', h1, h2, h3⟩ := C38_exact (o := ⟨80, [], [], true⟩) (pad _) hd (by simp [Ws]) (by simp [Ws]) rfl
  refine (congrArg (fun r => r.toOption.map tokens) h1).trans ?_
  show some (tokens out) = _
  rw [tokens_padded h2 h3]
  decide +kernel

theorem p05 : prettyOptions b!"{\"b\":1,\"a\":2}" ⟨80, [], b!"  ", true⟩ = .ok b!"{\n  \"a\": 2,\n  \"b\": 1\n}\n" := by
  have := C43_layout (pad _) (two lit_b lit_a (num (t := b!"1") (by decide +kernel)) (num (t := b!"2") (by decide +kernel)))
    (by decide +kernel) ⟨80, [], b!"  ", true⟩
  exact this.trans (by decide +kernel)

theorem p06 : (get b!"[1,[]]" b!"@flatten").toOption.map Value.json = some b!"[1]" := by
  obtain ⟨r, h1, h2, _⟩ := C32_exact (arr (vs := [b!"1", b!"[]"]) (by decide +kernel)) (pad _) (a := []) (m := b!"@flatten") (.bare (by decide))
    ⟨Value.default, by decide +kernel, by decide +kernel⟩
  exact json_of ⟨r, h1, h2.trans (by decide +kernel)⟩

theorem p07 : (get b!"[1,{\"a\":2}]" b!"@join:{\"preserve\":true}").toOption.map Value.json = some b!"{\"a\":2}" := by
  have hm : ModCall b!"join" b!"{\"preserve\":true}" b!"@join:{\"preserve\":true}" := .json (by decide) (value_of_valid (by decide +kernel) (by decide)) (by decide)
  obtain ⟨r, h1, h2, _⟩ := C33_preserve_exact (arr (vs := [b!"1", b!"{\"a\":2}"]) (by decide +kernel)) (pad _) hm
    ⟨_, rfl, by decide +kernel⟩
  exact json_of ⟨r, h1, h2.trans (by decide +kernel)⟩

/-- The members of a result which is an object. -/
theorem members' {r : Value} {out : Bytes} {kvs : List (Bytes × Bytes)} (h : SameAsText r out) (ho : IsObject out kvs) :
    r.each (fun (l : List (Bytes × Bytes)) k v => .ok (l ++ [(k.json, v.json)], true)) [] = .ok kvs := by
  obtain ⟨pairs, h1, h2⟩ := C28_each_value r out [] kvs ho (h.2.1.trans (IsObject.kindOf ho)) (by rw [h.1, List.append_nil])
  rw [h2]
  clear h2 ho h
  have : ∀ (acc : List (Bytes × Bytes)), visit (fun (st : List (Bytes × Bytes)) (p : Value × Value) => (.ok (st ++ [(p.1.json, p.2.json)], true) : Res _)) acc pairs =
      .ok (acc ++ kvs) := by
    induction h1 with
    | nil => intro acc; simp [visit]
    | cons h _ ih => intro acc; simp only [visit, if_true, ih, h.1.1, h.2.1, List.append_assoc, List.singleton_append]
  simpa using this []

theorem p08 : (get b!"[{\"\\u0061\":2}]" b!"@join" >>= fun r =>
    r.each (fun (l : List (Bytes × Bytes)) k v => .ok (l ++ [(k.json, v.json)], true)) []) = .ok [(b!"\"\\u0061\"", b!"2")] := by
  have ho : IsObject b!"{\"\\u0061\":2}" [(b!"\"\\u0061\"", b!"2")] := by
    refine .inr ⟨[⟨[], b!"\"\\u0061\"", [], [], b!"2", []⟩], by simp, ?_, ?_, rfl, rfl⟩
    · intro m hm; simp at hm; subst hm
      exact ⟨by decide, ⟨b!"\\u0061", .uni (by decide) (by decide) (by decide) (by decide) .nil, rfl⟩, by decide, by decide, by decide⟩
    · intro m hm; simp at hm; subst hm; exact val (by decide +kernel)
  obtain ⟨r, out, h1, h2, h3⟩ := C33_merge (mss := [[(b!"\"\\u0061\"", b!"2")]]) (dec := fun _ => b!"a") (a := [])
    (arr (vs := [b!"{\"\\u0061\":2}"]) (by decide +kernel)) (pad _) (.take ho .nil)
    (by intro m hm; simp at hm; subst hm; exact ⟨_, rfl, by decide +kernel⟩) (.bare (by decide))
    ⟨Value.default, by decide +kernel, by decide +kernel⟩
  refine (congrArg (fun x => x >>= fun r => Value.each r _ _) h1).trans ?_
  exact members' h2 h3

theorem p09 : pretty b!"[1,2]" = .ok b!"[1, 2]\n" := by
  have := C43_default (pad _) (items (es := [(b!"1", _), (b!"2", _)]) (by simp) (by
    simp only [List.forall_mem_cons]
    exact ⟨num (t := b!"1") (by decide +kernel), num (t := b!"2") (by decide +kernel), by simp⟩)) (by decide +kernel)
  exact this.trans (by decide +kernel)

theorem p10 : prettyOptions b!"[1]" ⟨4, [], b!"  ", false⟩ = .ok b!"[1]\n" := by
  have := C43_layout (pad _) (items (es := [(b!"1", _)]) (by simp) (by
    simp only [List.forall_mem_cons]
    exact ⟨num (t := b!"1") (by decide +kernel), by simp⟩)) (by decide +kernel) ⟨4, [], b!"  ", false⟩
  exact this.trans (by decide +kernel)

theorem p11 : prettyOptions b!"[10,20]" ⟨8, [], b!"  ", false⟩ = .ok b!"[10, 20]\n" := by
  have := C43_layout (pad _) (items (es := [(b!"10", _), (b!"20", _)]) (by simp) (by
    simp only [List.forall_mem_cons]
    exact ⟨num (t := b!"10") (by decide +kernel), num (t := b!"20") (by decide +kernel), by simp⟩)) (by decide +kernel) ⟨8, [], b!"  ", false⟩
  exact this.trans (by decide +kernel)

theorem p12 : prettyOptions b!"{\"a\":{}}" ⟨80, [], b!"  ", false⟩ = .ok b!"{\n  \"a\": {}\n}\n" := by
  have := C43_layout (pad _) (one lit_a (.objEmpty (w := []) (by simp [Ws]))) (by decide +kernel) ⟨80, [], b!"  ", false⟩
  exact this.trans (by decide +kernel)

theorem object_of (text : Bytes) {ts : List Bytes} {es : List (Bytes × Bytes)} (hne : ts ≠ [])
    (he : Aligned (fun t e => Entry t e.1 e.2) ts es) {x : Bytes} (hx : ((es.map (·.2)).mapM (get text)).toOption.map
      (fun rs => objectText ((((es.map (·.1)).zip rs).filter (·.2.exists)).map fun kr => (escape kr.1, kr.2.json))) = some x) :
    (get text (c! '{' :: (commaSep ts ++ [c! '}']))).toOption.map Value.json = some x := by
  have h := C35_object text hne he
  cases hm : (es.map (·.2)).mapM (get text) with
  | error e => rw [hm] at hx; cases hx
  | ok rs =>
    rw [hm] at h hx
    obtain ⟨v, h1, _, _, h⟩ := h
    rw [h1]
    exact (congrArg some h).trans hx

theorem path_plain {p : Bytes} (h : ∀ c ∈ p, c ∉ bracketSpecial ∧ c ≠ c! ',' ∧ c ≠ c! ':') : SubPath p := by
  induction p with
  | nil => exact .nil
  | cons c r ih =>
    have := h c List.mem_cons_self
    exact .plain this.1 this.2.1 this.2.2 (ih fun x hx => h x (List.mem_cons_of_mem _ hx))

theorem last_part {p : Bytes} (h : c! '.' ∉ p ∧ c! '|' ∉ p) : LastPart p := by
  intro a s r e hs
  subst e
  rcases hs with rfl | rfl
  · exact absurd (by simp) h.1
  · exact absurd (by simp) h.2

theorem last_plain {p : Bytes} (h : c! '.' ∉ p ∧ c! '|' ∉ p) : LastName p p := .whole (last_part h)

theorem p13 : (get b!"[1,2]" b!"{#}").toOption.map Value.json = some b!"{\"_\":2}" :=
  object_of b!"[1,2]" (ts := [b!"#"]) (es := [(b!"_", b!"#")]) (by simp)
    (.cons (.other (path_plain (by decide)) (last_plain (by decide)) (by unfold SimpleName; decide)) .nil) (by decide +kernel)

theorem p14 : (get b!"{\"a.b\":1}" b!"{a\\.b}").toOption.map Value.json = some b!"{\"a\\\\.b\":1}" :=
  object_of b!"{\"a.b\":1}" (ts := [b!"a\\.b"]) (es := [(b!"a\\.b", b!"a\\.b")]) (by simp)
    (.cons (.last (.plain (by decide) (by decide) (by decide) (.esc (path_plain (by decide))))
      (.whole (by
        intro a s r e hs
        match a, e with
        | [], e => simp at e; rcases hs with rfl | rfl <;> simp at e
        | [x], e => simp at e; rcases hs with rfl | rfl <;> simp at e
        | [x, y], e => simp at e; simp [← e.2.1]
        | x :: y :: z :: a, e =>
          simp at e
          have : s ∈ b!"b" := by rw [show b!"b" = [98] from rfl, e.2.2.2]; simp
          rcases hs with rfl | rfl <;> exact absurd this (by decide)))
      (by unfold SimpleName; decide)) .nil) (by decide +kernel)

theorem p15 : (get b!"{\"a\":1}" b!"{a,b}").toOption.map Value.json = some b!"{\"a\":1}" :=
  object_of b!"{\"a\":1}" (ts := [b!"a", b!"b"]) (es := [(b!"a", b!"a"), (b!"b", b!"b")]) (by simp)
    (.cons (.last (path_plain (by decide)) (last_plain (by decide)) (by unfold SimpleName; decide))
      (.cons (.last (path_plain (by decide)) (last_plain (by decide)) (by unfold SimpleName; decide)) .nil)) (by decide +kernel)

theorem p16 : (get b!"{\"a\":1,\"b\":2}" b!"{x:a,b}").toOption.map Value.json = some b!"{\"x\":1,\"b\":2}" :=
  object_of b!"{\"a\":1,\"b\":2}" (ts := [b!"x:a", b!"b"]) (es := [(b!"x", b!"a"), (b!"b", b!"b")]) (by simp)
    (.cons (.named (k := b!"x") (p := b!"a") (.plain (by decide) (by decide) .nil) (path_plain (by decide)))
      (.cons (.last (path_plain (by decide)) (last_plain (by decide)) (by unfold SimpleName; decide)) .nil)) (by decide +kernel)

theorem p17 : (get b!"{\"a\":[],\"a\":{\"b\":2}}" b!"a.b").toOption.map Value.json = some b!"2" := by
  have ho : IsObject b!"{\"a\":[],\"a\":{\"b\":2}}" [(b!"\"a\"", b!"[]"), (b!"\"a\"", b!"{\"b\":2}")] :=
    obj (kvs := [(b!"a", b!"[]"), (b!"a", b!"{\"b\":2}")]) (by decide +kernel)
  have hi : IsObject b!"{\"b\":2}" [(b!"\"b\"", b!"2")] := obj (kvs := [(b!"b", b!"2")]) (by decide +kernel)
  have ha : IsArray b!"[]" [] := arr (vs := []) (by simp)
  have hit : ∀ c : UInt8, c ∈ b!"ab" → Hits [c] [c! '"', c, c! '"'] := by
    intro c hc
    refine ⟨[c], ?_, ?_⟩
    · revert hc; revert c; simp only [List.forall_mem_cons]; exact ⟨⟨_, rfl, by decide +kernel⟩, ⟨_, rfl, by decide +kernel⟩, by simp⟩
    · exact .plain (by rintro rfl; revert hc; decide) (by rintro rfl; revert hc; decide) (by rintro rfl; revert hc; decide) .nil
  obtain ⟨w, h1, h2, _⟩ := C10_exact (ks := [b!"a", b!"b"]) (IsObject.isValue ho) (pad _) (by
    intro k hk; simp at hk; rcases hk with rfl | rfl <;> exact PlainKey.selector (by decide) (by decide)) (by simp)
  have hm : Spec.Met [b!"[]"] [] := .arr ha .nil
  have hf : Find Hits b!"{\"a\":[],\"a\":{\"b\":2}}" [b!"a", b!"b"] (.found b!"2") :=
    .obj ho (.again (hit (c! 'a') (by decide)) (.inr rfl) (.beyond ha (by simp)) hm
      (.into (hit (c! 'a') (by decide)) (.inl rfl) (.obj hi (.last (hit (c! 'b') (by decide)))) (by simp)))
  exact json_of ⟨w, h1, (h2 _ hf).1⟩

/-- What a result gives for a further path. -/
theorem then_get {r : Res Value} {t p path path2 : Bytes} {w : Value} (h : get t path2 = r >>= fun v => v.get p) (hr : get t path = r) (hw : r = .ok w) {x : Bytes}
    (hx : (get w.json p).toOption.map Value.json = some x) : (get t path2).toOption.map Value.json = some x := by
  rw [h, hw, ok_bind]
  exact (json_same (C12_value_get (.get (hr.trans hw)) p)).trans hx

theorem query_gt : QueryText b!"a>0" b!"a" (some .gt) b!"0" :=
  .compare (w1 := []) (lh := b!"a") (w2 := []) (o := b!">") (w3 := []) (rh := b!"0") (w4 := [])
    ⟨.plain (by decide) (by decide) .nil, by unfold Trimmed; decide, fun h => absurd h.pretty (by decide)⟩
    (.name .gt) ⟨.plain (by decide) .nil, by unfold Trimmed; decide⟩ (by simp [Blank]) (by simp [Blank]) (by simp [Blank]) (by simp [Blank]) (by decide)

theorem p18 : (get b!"[{\"a\":1},{\"a\":2}]" b!"#(a>0)#|0").toOption.map Value.json = some b!"{\"a\":1}" := by
  have hs : Sequence b!"[{\"a\":1},{\"a\":2}]" [] [b!"{\"a\":1}", b!"{\"a\":2}"] :=
    .array (arr (vs := [b!"{\"a\":1}", b!"{\"a\":2}"]) (by decide +kernel)) (pad _)
  obtain ⟨w, h1, _, _, h2, _⟩ := C14_all hs query_gt (test := fun _ => true) (by
    simp only [List.forall_mem_cons]
    exact ⟨⟨_, rfl, by decide +kernel⟩, ⟨_, rfl, by decide +kernel⟩, by simp⟩)
  refine then_get (C14_all_pipe hs query_gt b!"0") rfl h1 ?_
  obtain ⟨w', g1, _, g2, _⟩ := C07_element (n := 0) (v := b!"{\"a\":1}") (arr (vs := [b!"{\"a\":1}", b!"{\"a\":2}"]) (by decide +kernel)) (pad _) (by decide) rfl
  rw [h2]
  exact json_of ⟨w', g1, g2⟩

theorem p19 : Value.f32 ⟨b!"33554435", [], [], INFO_NUMBER, none⟩ ≠ .ok (.fin false (33554432 * 2 ^ 1074)) := by
  intro e
  obtain ⟨y, h1, h2⟩ := (C42_f32 ⟨b!"33554435", [], [], INFO_NUMBER, none⟩).1 false (33554435 * 2 ^ 1074) (by decide +kernel)
  rw [h1] at e
  simp only [Except.ok.injEq] at e
  subst e
  rcases h2 with ⟨_, k', e, _, h⟩ | ⟨_, e⟩
  · simp only [F64.fin.injEq, true_and] at e
    subst e
    have := (h (8388609 * 2 ^ 1076) ⟨by decide +kernel, 8388609, 1076, rfl, by decide, by decide⟩).1
    revert this
    rw [show 8388609 * 2 ^ 1076 = (8388609 * 4) * 2 ^ 1074 by rw [show (1076 : Nat) = 2 + 1074 from rfl, pow_add]; ring,
      mag_shift _ _ (by omega), mag_shift _ _ (by omega), mag_shift _ _ (by omega)]
    norm_num
  · simp at e

theorem p20 : queryMatches ⟨b!"0", [], [], INFO_NUMBER, none⟩ b!"=" b!"~true" = .ok false :=
  (C45_decide (rh := b!"~true") (y := true) (.inr ⟨by decide, rfl⟩) (x := false) (by decide +kernel) .eq).trans (by decide)

theorem holds_of {lh rh e : Bytes} {op : Option Op} {b : Bool}
    (h : ((if lh = [] then parse e else get e lh) >>= fun v => queryMatches v (opName op) rh) = .ok b) : QueryHolds lh op rh e b := bind_eq_ok.1 h

theorem p21 : (get b!"[{\"a\":[1,2]}]" b!"#(a.#(>1))").toOption.map Value.json = some b!"{\"a\":[1,2]}" := by
  have hl : LeftText false b!"a.#(>1)" := .plain (by decide) (by decide) (.plain (by decide) (by decide) (.plain (by decide) (by decide)
    (.paren (b := b!">1") (.plain (by decide) (by decide) (.plain (by decide) (by decide) .nil)) .nil)))
  obtain ⟨w, h1, h2, _⟩ := C14_first (q := b!"a.#(>1)") (lh := b!"a.#(>1)") (op := none) (rh := []) (test := fun _ => true)
    (.array (arr (vs := [b!"{\"a\":[1,2]}"]) (by decide +kernel)) (pad _))
    (.present (w1 := []) (w2 := []) ⟨hl, by unfold Trimmed; decide, fun h => absurd h.pretty (by decide)⟩ (by decide) (by simp [Blank]) (by simp [Blank]))
    (by
      simp only [List.forall_mem_cons]
      exact ⟨holds_of (by decide +kernel), by simp⟩)
  exact json_of ⟨w, h1, (h2 [] b!"{\"a\":[1,2]}" [] rfl (by decide) (by decide)).2.1⟩

theorem p22 : (get b!"{\"a\":1,\"b\":2}" b!"@reverse" >>= fun r =>
    r.each (fun (l : List (Bytes × Bytes)) k v => .ok (l ++ [(k.json, v.json)], true)) []) =
      .ok [(b!"\"b\"", b!"2"), (b!"\"a\"", b!"1")] := by
  obtain ⟨r, out, h1, h2, h3⟩ := C29_object (obj (kvs := [(b!"a", b!"1"), (b!"b", b!"2")]) (by decide +kernel)) (pad _)
    (a := []) (m := b!"@reverse") (.bare (by decide))
  refine (congrArg (fun x => x >>= fun r => Value.each r _ _) h1).trans ?_
  exact members' h2 h3

theorem p23 : (get b!"[[\"]\"],2]" b!"0").toOption.map Value.json = some b!"[\"]\"]" := by
  obtain ⟨w, h1, _, h2, _⟩ := C07_element (n := 0) (v := b!"[\"]\"]") (arr (vs := [b!"[\"]\"]", b!"2"]) (by decide +kernel)) (pad _) (by decide) rfl
  exact json_of ⟨w, h1, h2⟩

theorem p24 : (get b!"{\"a\" : 1}" b!"a").toOption.map Value.json = some b!"1" := by
  have ho : IsObject b!"{\"a\" : 1}" ([] ++ (b!"\"a\"", b!"1") :: []) := by
    refine .inr ⟨[⟨[], b!"\"a\"", b!" ", b!" ", b!"1", []⟩], by simp, ?_, ?_, rfl, rfl⟩
    · intro m hm; simp at hm; subst hm
      exact ⟨by decide, lit_a, by decide, by decide, by decide⟩
    · intro m hm; simp at hm; subst hm; exact val (by decide +kernel)
  obtain ⟨w, h1, _, h2, _⟩ := C06_member_partial (k := b!"a") ho (pad _) (by decide)
    ⟨b!"a", rfl, .plain (by decide) (by decide) (by decide) .nil⟩ (by simp)
  exact json_of ⟨w, h1, h2⟩

theorem p25 : (get b!"{\"b\":1,\"a\":2}" b!"@pretty:{\"sortKeys\":false}").toOption.map (fun v => tokens v.json) =
    some [b!"{", b!"\"b\"", b!":", b!"1", b!",", b!"\"a\"", b!":", b!"2", b!"}"] := by
  obtain ⟨r, v', h1, _, h2, h3⟩ := C31_modifier (a := b!"{\"sortKeys\":false}") (m := b!"@pretty:{\"sortKeys\":false}") (pad _)
    (two lit_b lit_a (num (t := b!"1") (by decide +kernel)) (num (t := b!"2") (by decide +kernel)))
    (.json (by decide) (value_of_valid (by decide +kernel) (by decide)) (by decide))
    ⟨Value.default, [], by decide +kernel, by decide, by simp [Ws]⟩ ⟨Value.default, [], by decide +kernel, by decide, by simp [Ws]⟩ ⟨_, rfl, by decide +kernel⟩
  refine (congrArg (fun r => r.toOption.map fun v => tokens v.json) h1).trans ?_
  show some (tokens r.json) = _
  rw [tokens_padded h2 h3]
  decide +kernel

theorem p26 : (get b!"{\"a\":5}" b!"[a]|0").toOption.map Value.json = some b!"5" := by
  have h := C35_array_rest b!"{\"a\":5}" (ps := [b!"a"]) (by simp) (by
    simp only [List.forall_mem_cons]; exact ⟨path_plain (by decide), by simp⟩) (rs := [⟨b!"5", [], [], INFO_NUMBER, some 5⟩]) (by decide +kernel) (s := c! '|') (.inr rfl) b!"0"
  refine (json_same h).trans ?_
  obtain ⟨w', g1, _, g2, _⟩ := C07_element (n := 0) (v := b!"5") (arr (vs := [b!"5"]) (by decide +kernel)) (pad _) (by decide) rfl
  exact json_of ⟨w', g1, g2⟩

theorem p27 : (get b!"[5]" b!"x").toOption.map Value.exists = some false :=
  exists_of (C07_no_index (arr (vs := [b!"5"]) (by decide +kernel)) (pad _) (by decide) (by
    rintro n ⟨ds, _, h1, _, rfl | h | ⟨h, _⟩⟩
    · exact absurd (h1 _ (List.mem_singleton.2 rfl)) (by decide)
    · exact absurd (List.cons.inj h).1 (by decide)
    · exact absurd (List.cons.inj h).1 (by decide)))

theorem p28 : queryMatches ⟨b!"1", [], [], INFO_NUMBER, none⟩ b!"<=" b!"1" = .ok true :=
  (C15_number (v := ⟨b!"1", [], [], INFO_NUMBER, none⟩) (x := .fin false (2 ^ 1074)) (rh := b!"1") (r := b!"1") (by decide) (by decide) (by decide +kernel)
    (.inr ⟨by decide, rfl⟩) (by unfold NoTilde; decide) .le).trans (by decide +kernel)

theorem p29 : Value.bool ⟨b!"-5", [], [], INFO_NUMBER, none⟩ = .ok true :=
  ((C39_bool ⟨b!"-5", [], [], INFO_NUMBER, none⟩).2.2.2 (by decide) (by decide) (-5) (by decide +kernel)).trans (by decide)

theorem p30 : (get b!"{\"a\":1}" b!"@this:x.a").toOption.map Value.json = some b!"1" := by
  have hm : ModCall b!"this" b!"x" b!"@this:x" := .plain (by decide) (by decide) (by decide) (by decide)
  obtain ⟨p, v, h1, h2, h3⟩ := C34_this b!"{\"a\":1}" hm
  refine then_get (C34_rest b!"{\"a\":1}" b!"a" hm (.inl rfl)) rfl h2 ?_
  have e : p.json = b!"{\"a\":1}" := by
    have : (parse b!"{\"a\":1}").toOption.map Value.json = some b!"{\"a\":1}" := by decide +kernel
    rw [h1] at this
    exact Option.some.inj this
  rw [h3.json, e]
  obtain ⟨w, g1, _, g2, _⟩ := C06_member_partial (k := b!"a") (kl := b!"\"a\"") (v := b!"1") (before := []) (after := [])
    (obj (kvs := [(b!"a", b!"1")]) (by decide +kernel)) (pad _) (by decide)
    ⟨b!"a", rfl, .plain (by decide) (by decide) (by decide) .nil⟩ (by simp)
  exact json_of ⟨w, g1, g2⟩

theorem p31 : (get b!"1" b!"@this").toOption.map Value.kind = some .number := by
  obtain ⟨p, v, h1, h2, h3⟩ := C34_this b!"1" (a := []) (m := b!"@this") (.bare (by decide))
  obtain ⟨_, q, _, g1, _, _, g2, _⟩ := C40_parse b!"1" [] [] (val (by decide +kernel)) (by decide) (by decide)
  have e : (Except.ok p : Res Value) = .ok q := h1.symm.trans g1
  cases e
  rw [h2]
  exact congrArg some (h3.kind.trans g2)

theorem p32 : (get b!"[{\"a\":1},{\"a\":2}]" b!"#.a|0").toOption.map Value.json = some b!"1" := by
  have hs : Sequence b!"[{\"a\":1},{\"a\":2}]" [] [b!"{\"a\":1}", b!"{\"a\":2}"] :=
    .array (arr (vs := [b!"{\"a\":1}", b!"{\"a\":2}"]) (by decide +kernel)) (pad _)
  have hk : ∀ k ∈ [b!"a"], Selector k := by intro k hk; simp at hk; subst hk; exact PlainKey.selector (by decide) (by decide)
  obtain ⟨ws, hw, w, h1, _, _, h2, _⟩ := C13_map (ks := [b!"a"]) hs hk (by simp)
  refine then_get (C13_map_pipe hs hk (by simp) b!"0") rfl h1 ?_
  rcases hw with _ | ⟨a, hw⟩
  rcases hw with _ | ⟨b, hw⟩
  cases hw
  have ha := jsonx (x := (true, b!"1")) a (by decide +kernel)
  have hb := jsonx (x := (true, b!"2")) b (by decide +kernel)
  rw [h2]
  simp only [found, List.filter_cons, ha.1, hb.1, if_true, List.filter_nil, List.map_cons, ha.2, hb.2, List.map_nil]
  obtain ⟨w', g1, _, g2, _⟩ := C07_element (n := 0) (v := b!"1") (arr (vs := [b!"1", b!"2"]) (by decide +kernel)) (pad _) (by decide) rfl
  exact json_of ⟨w', g1, g2⟩

theorem p33 : ((get b!"\"\\n\"" b!"@this").toOption.map Value.str) = some (.ok b!"\n") := by
  obtain ⟨p, v, h1, h2, h3⟩ := C34_this b!"\"\\n\"" (a := []) (m := b!"@this") (.bare (by decide))
  obtain ⟨w, g1, _, g2⟩ := C23_str_decodes_partial (b := b!"\\n") (t := b!"\n") (.esc (by decide) .nil) [] [] (by decide) (by decide)
  rw [show ([] ++ (c! '"' :: (b!"\\n" ++ [c! '"'])) ++ []) = b!"\"\\n\"" from rfl, h1] at g1
  cases g1
  rw [h2]; exact congrArg some (h3.str.trans g2)

theorem json_text {t : Bytes} (h : valid t = .ok true) : JsonText t := (C01_valid_iff_rfc8259 t).1 h

theorem exists_alike {a b : Res Value} (h : ∃ v v', a = .ok v ∧ b = .ok v' ∧ SpacedAlike v v') :
    a.toOption.map Value.exists = b.toOption.map Value.exists := by
  obtain ⟨v, v', rfl, rfl, h⟩ := h
  exact congrArg some h.exists

theorem q01 : (get b!"\t{\"a\":1}" b!"a").toOption.map Value.exists = (get b!"{\"a\":1}" b!"a").toOption.map Value.exists :=
  exists_alike (C49_space (json_text (by decide +kernel)) (json_text (by decide +kernel)) (by decide +kernel)
    (.last (.selector (PlainKey.selector (by decide) (by decide)))))

theorem q02 : (get b!"[\t5]" b!"0").toOption.map Value.exists = (get b!"[5]" b!"0").toOption.map Value.exists :=
  exists_alike (C49_space (json_text (by decide +kernel)) (json_text (by decide +kernel)) (by decide +kernel)
    (.last (.selector (PlainKey.selector (by decide) (by decide)))))

theorem same_two {k1 k2 : Bytes} {d1 d2 : Doc} (h : rawKey k2 ≤ rawKey k1) (h' : ¬ rawKey k1 ≤ rawKey k2) :
    SameMembers id (.obj [(k1, d1), (k2, d2)]) (.obj [(k2, d2), (k1, d1)]) :=
  same_of_sort (by simp [Doc.sort, sortVals, sortMembers, insertMember, h, h'])

theorem q03 : prettyOptions b!"{\"b\":1,\"a\":2}" ⟨80, [], [], true⟩ = prettyOptions b!"{\"a\":2,\"b\":1}" ⟨80, [], [], true⟩ := by
  have h1 := num (t := b!"1") (by decide +kernel)
  have h2 := num (t := b!"2") (by decide +kernel)
  exact C50_same (pad _) (two lit_b lit_a h1 h2) (pad _) (two lit_a lit_b h2 h1) (by decide +kernel) (same_two (by decide) (by decide)) rfl

theorem lit_aa : StrLit b!"\"aa\"" := ⟨b!"aa", .plain (by decide) (by decide) (by decide) (.plain (by decide) (by decide) (by decide) .nil), rfl⟩
theorem lit_ab : StrLit b!"\"ab\"" := ⟨b!"ab", .plain (by decide) (by decide) (by decide) (.plain (by decide) (by decide) (by decide) .nil), rfl⟩

theorem q04 : prettyOptions b!"{\"ab\":1,\"aa\":2}" ⟨80, [], [], true⟩ = prettyOptions b!"{\"aa\":2,\"ab\":1}" ⟨80, [], [], true⟩ := by
  have h1 := num (t := b!"1") (by decide +kernel)
  have h2 := num (t := b!"2") (by decide +kernel)
  exact C50_same (pad _) (two lit_ab lit_aa h1 h2) (pad _) (two lit_aa lit_ab h2 h1) (by decide +kernel) (same_two (by decide) (by decide)) rfl

theorem q05 : prettyOptions b!"1" ⟨80, b!">", [], false⟩ = .ok b!">1\n" :=
  (C43_layout (pad _) (num (t := b!"1") (by decide +kernel)) (by decide +kernel) ⟨80, b!">", [], false⟩).trans (by decide +kernel)

theorem q06 : unescape (escape b!"é") = .ok b!"é" := C21_unescape_escape _

theorem q07 : (get b!"{\"a\":1}" b!"{x\ty:a}").toOption.map (fun v => valid v.json) ≠ some (.ok false) := by
  cases h : get b!"{\"a\":1}" b!"{x\ty:a}" with
  | error e => intro h; cases h
  | ok v =>
    by_cases he : v.exists = true
    · have := (C41_jsonText (json_text (by decide +kernel)) (by decide) h he)
      intro e
      have e : some (valid v.json) = some (.ok false) := e
      rw [this.2] at e; cases e
    · have e : v.json = [] := by unfold Value.exists at he; simpa using he
      have h' := object_of b!"{\"a\":1}" (ts := [b!"x\ty:a"]) (es := [(b!"x\ty", b!"a")]) (by simp)
        (.cons (.named (k := b!"x\ty") (p := b!"a") (.plain (by decide) (by decide) (.plain (by decide) (by decide) (.plain (by decide) (by decide) .nil)))
          (path_plain (by decide))) .nil) (x := b!"{\"x\\ty\":1}") (by decide +kernel)
      have h' : (get b!"{\"a\":1}" b!"{x\ty:a}").toOption.map Value.json = some b!"{\"x\\ty\":1}" := h'
      rw [h] at h'
      have h' : some v.json = some b!"{\"x\\ty\":1}" := h'
      rw [e] at h'
      exact absurd h' (by decide)

theorem q08 : (get b!"{\"a\":{\"b\":1}}" b!"{a|b}").toOption.map Value.json = some b!"{\"b\":1}" :=
  object_of b!"{\"a\":{\"b\":1}}" (ts := [b!"a|b"]) (es := [(b!"b", b!"a|b")]) (by simp)
    (.cons (.last (path_plain (by decide)) (.after (a := b!"a") (s := c! '|') (k := b!"b") (.inr rfl) (by decide) (by
      intro a s r e hs
      have : s ∈ b!"b" := by rw [e]; simp
      rcases hs with rfl | rfl <;> exact absurd this (by decide))) (by unfold SimpleName; decide)) .nil) (by decide +kernel)

theorem q09 : Value.cmp ⟨b!"\"a\"", [], [], INFO_STRING, none⟩ ⟨b!"\"\\u0061\"", [], b!"a", INFO_STRING ||| INFO_ESC, none⟩ = .ok .eq :=
  (C26_strings _ _ b!"a" b!"a" (by decide) (by decide) (by decide +kernel) (by decide +kernel)).2.2 rfl

theorem q10 : (parse b!"1e+1" >>= Value.f64) ≠ .ok (.fin false 0) := by
  have := not_nearest (t := b!"1e+1") (q := 10) (y := 10 * 2 ^ 1074) (k := 0 * 2 ^ 1074)
    ⟨[], b!"1", [], b!"e+1", rfl, rfl, .inr ⟨c! '1', [], rfl, by decide, by decide, by decide⟩,
      .inl rfl, .inr ⟨c! 'e', b!"+", b!"1", rfl, .inl rfl, .inr (.inl rfl), by decide, by decide⟩, by
        rw [show decVal (b!"1" ++ ([] : Bytes).drop 1) = 1 by decide, show expVal b!"e+1" = 1 by decide]
        norm_num⟩
    (has_mul (by decide) (by decide) (by decide))
    (by rw [mag_shift _ _ (by omega), mag_shift _ _ (by omega)]; norm_num [abs_of_pos, abs_of_neg])
  rwa [Nat.zero_mul] at this

theorem q11 : (get b!"[\"a\",\"b\"]" b!"#(!%a)").toOption.map Value.json = some b!"\"b\"" := by
  obtain ⟨w, h1, h2, _⟩ := C14_first (q := b!"!%a") (lh := []) (op := some .unlike) (rh := b!"a") (test := fun e => e ≠ b!"\"a\"")
    (.array (arr (vs := [b!"\"a\"", b!"\"b\""]) (by decide +kernel)) (pad _))
    (.compare (w1 := []) (lh := []) (w2 := []) (o := b!"!%") (w3 := []) (rh := b!"a") (w4 := []) (.plain (by decide) (by unfold Trimmed; decide))
      (.name .unlike) (.plain (by decide) (by unfold Trimmed; decide)) (by simp [Blank]) (by simp [Blank]) (by simp [Blank]) (by simp [Blank]) (by decide))
    (by
      simp only [List.forall_mem_cons]
      exact ⟨⟨_, rfl, by decide +kernel⟩, ⟨_, rfl, by decide +kernel⟩, by simp⟩)
  exact json_of ⟨w, h1, (h2 [b!"\"a\""] b!"\"b\"" [] rfl (by decide) (by decide)).2.1⟩

theorem q12 : (get b!"[true,false]" b!"#(= false)").toOption.map Value.json = some b!"false" := by
  obtain ⟨w, h1, h2, _⟩ := C14_first (q := b!"= false") (lh := []) (op := some .eq) (rh := b!"false") (test := fun e => e ≠ b!"true")
    (.array (arr (vs := [b!"true", b!"false"]) (by decide +kernel)) (pad _))
    (.compare (w1 := []) (lh := []) (w2 := []) (o := b!"=") (w3 := b!" ") (rh := b!"false") (w4 := []) (.plain (by decide) (by unfold Trimmed; decide))
      (.name .eq) (.plain (by decide) (by unfold Trimmed; decide)) (by simp [Blank]) (by simp [Blank]) (by unfold Blank; decide) (by simp [Blank]) (by decide))
    (by
      simp only [List.forall_mem_cons]
      exact ⟨⟨_, rfl, by decide +kernel⟩, ⟨_, rfl, by decide +kernel⟩, by simp⟩)
  exact json_of ⟨w, h1, (h2 [b!"true"] b!"false" [] rfl (by decide) (by decide)).2.1⟩

theorem q13 : (get b!"{\"a\":{\"b\":1}}" b!"a.[b]").toOption.map Value.json = some b!"[1]" := by
  have ho : IsObject b!"{\"a\":{\"b\":1}}" [(b!"\"a\"", b!"{\"b\":1}")] := obj (kvs := [(b!"a", b!"{\"b\":1}")]) (by decide +kernel)
  have hr : Resolves KeyIs b!"{\"a\":{\"b\":1}}" [b!"a"] b!"{\"b\":1}" :=
    .key (before := []) ho (by simp) ⟨_, rfl, by decide +kernel⟩ .here
  have h := (C44_plain (ks := [b!"a"]) (IsObject.isValue ho) (pad _) (by decide) (by simp) hr).1 (c! '[') (by decide) b!"b]"
  refine (json_same h).trans ?_
  have h := C35_array b!"{\"b\":1}" (ps := [b!"b"]) (by simp) (by simp only [List.forall_mem_cons]; exact ⟨path_plain (by decide), by simp⟩)
  cases hb : [b!"b"].mapM (get b!"{\"b\":1}") with
  | error e =>
    have : ([b!"b"].mapM (get b!"{\"b\":1}")).toOption.isSome = true := by decide +kernel
    rw [hb] at this; cases this
  | ok rs =>
    have hx : ([b!"b"].mapM (get b!"{\"b\":1}")).toOption.map (fun rs => arrayText ((rs.filter (·.exists)).map (·.json))) = some b!"[1]" := by
      decide +kernel
    rw [hb] at h hx
    obtain ⟨v, h1, _, _, h2⟩ := h
    exact json_of ⟨v, h1, h2.trans (Option.some.inj hx)⟩

theorem q14 : (get b!"{\"A\":1}" b!"a").toOption.map Value.exists = some false :=
  exists_of (C06_missing_partial (obj (kvs := [(b!"A", b!"1")]) (by decide +kernel)) (pad _) (by decide) (by
    simp only [List.map_cons, List.map_nil, List.forall_mem_cons]
    exact ⟨⟨b!"A", ⟨b!"A", rfl, .plain (by decide) (by decide) (by decide) .nil⟩, by decide⟩, by simp⟩))

theorem q15 : (get b!"{\"ab\":1}" b!"a?").toOption.map Value.json = some b!"1" := by
  obtain ⟨w, h1, h2, _⟩ := C16_get_partial (k := b!"a?") (kl := b!"\"ab\"") (s := b!"ab") (v := b!"1") (before := []) (after := [])
    (obj (kvs := [(b!"ab", b!"1")]) (by decide +kernel)) (pad _)
    ⟨.plain (by decide) (.plain (by decide) .nil), by decide, by decide⟩ (by decide) ⟨_, rfl, by decide +kernel⟩
    (.plain (by decide) (by decide) (by decide) (.any .nil)) (by simp)
  exact json_of ⟨w, h1, h2⟩

theorem q16 : (get b!"[5]" b!"#").toOption.map Value.kind = some .number := by
  obtain ⟨w, h1, _, h2, _⟩ := C08_count (arr (vs := [b!"5"]) (by decide +kernel)) (pad _)
  rw [show get b!"[5]" b!"#" = .ok w from h1]
  exact congrArg some h2

theorem q17 : (get b!"[[[1]]]" b!"@flatten").toOption.map Value.json = some b!"[[1]]" := by
  obtain ⟨r, h1, h2, _⟩ := C32_exact (arr (vs := [b!"[[1]]"]) (by decide +kernel)) (pad _) (a := []) (m := b!"@flatten") (.bare (by decide))
    ⟨Value.default, by decide +kernel, by decide +kernel⟩
  exact json_of ⟨r, h1, h2.trans (by decide +kernel)⟩

theorem q18 : unescape b!"\"\\ud800\\nabcd\"" = .ok b!"�\nabcd" := by
  have hs : Shown b!"\\ud800\\nabcd" (utf8 0xFFFD ++ b!"\nabcd") :=
    .lone (h1 := c! 'd') (h2 := c! '8') (h3 := c! '0') (h4 := c! '0') (by decide) (by decide) (by decide) (by decide)
      (by unfold IsSurrogate; decide) (by decide) (.esc (e := c! 'n') (by decide) (by
        repeat first | exact .nil | refine .plain (by decide) (by decide) (by decide) ?_))
  obtain ⟨t, _, h2, h3, _⟩ := C47_shown (b := b!"\\ud800\\nabcd")
    (.uni (by decide) (by decide) (by decide) (by decide) (.esc (by decide) (by
      repeat first | exact .nil | refine .plain (by decide) (by decide) (by decide) ?_)))
    (w1 := []) (w2 := []) (by simp [Ws]) (by simp [Ws])
  rw [← h2 _ hs] at h3
  exact h3.trans (by decide)

theorem r01 : queryMatches ⟨b!"false", [], [], INFO_FALSE, none⟩ b!"=" b!"~true" = .ok false :=
  (C45_decide (rh := b!"~true") (y := true) (.inr ⟨by decide, rfl⟩) (x := false) (by decide +kernel) .eq).trans (by decide)

theorem r02 : Value.u64 ⟨b!"true", [], [], INFO_TRUE, none⟩ = .ok 1 := ((C46_others _).1 (by decide)).2.1

theorem r03 : (get b!"{\"ab\":1,\"a\":2}" b!"a").toOption.map Value.json = some b!"2" := by
  obtain ⟨w, h1, _, h2, _⟩ := C06_member_partial (k := b!"a") (kl := b!"\"a\"") (v := b!"2") (before := [(b!"\"ab\"", b!"1")]) (after := [])
    (obj (kvs := [(b!"ab", b!"1"), (b!"a", b!"2")]) (by decide +kernel)) (pad _) (by decide)
    ⟨b!"a", rfl, .plain (by decide) (by decide) (by decide) .nil⟩ (by
      simp only [List.forall_mem_cons]
      exact ⟨⟨b!"ab", ⟨b!"ab", rfl, .plain (by decide) (by decide) (by decide) (.plain (by decide) (by decide) (by decide) .nil)⟩,
        by decide⟩, by simp⟩)
  exact json_of ⟨w, h1, h2⟩

theorem r04 : (get b!"[[[[1]]]]" b!"@flatten:{\"deep\":true}" >>= Value.array).toOption.map (fun l => l.map Value.json) = some [b!"1"] := by
  obtain ⟨r, out, h1, h2, h3⟩ := C32_deep_call (arr (vs := [b!"[[[1]]]"]) (by decide +kernel)) (pad _)
    (.splice (arr (vs := [b!"[[1]]"]) (by decide +kernel)) (.splice (arr (vs := [b!"[1]"]) (by decide +kernel))
      (.splice (arr (vs := [b!"1"]) (by decide +kernel)) (.keep (by decide) .nil) .nil) .nil) .nil)
  rw [show b!"[[[[1]]]]" = arrayText [b!"[[[1]]]"] from rfl, h1]
  exact elems h2 h3

theorem r05 : (pretty b!"[]").toOption.map (fun out => decide (13 ∈ out)) ≠ some true := by
  cases h : pretty b!"[]" with
  | error e => intro h; cases h
  | ok out =>
    intro e
    have e : some (decide (13 ∈ out)) = some true := e
    exact absurd (C53_pretty h 13 (of_decide_eq_true (Option.some.inj e))) (by decide)

theorem r06 : searchCalls b!"{\"a\":{\"a\":{\"a\":{}}}}" b!"a.b" = .ok 4 := (C54_attained 3 1).2.2

theorem r07 : getWithin 2 b!"1" b!"" ≠ .error .fuel := (C55_path_bound b!"1" b!"" (Nat.le_refl 2)).2

theorem r08 : (get b!"[[[1]]]" b!"@flatten:{\"deep\":true}" >>= Value.array).toOption.map (fun l => l.map Value.json) = some [b!"1"] := by
  obtain ⟨r, out, h1, h2, h3⟩ := C32_deep_call (arr (vs := [b!"[[1]]"]) (by decide +kernel)) (pad _)
    (.splice (arr (vs := [b!"[1]"]) (by decide +kernel))
      (.splice (arr (vs := [b!"1"]) (by decide +kernel)) (.keep (by decide) .nil) .nil) .nil)
  rw [show b!"[[[1]]]" = arrayText [b!"[[1]]"] from rfl, h1]
  exact elems h2 h3

theorem r10 : (get b!"[{\"a\":1},{},{\"a\":3}]" b!"#.a").toOption.map Value.json = some b!"[1,3]" := by
  obtain ⟨ws, hw, w, h1, _, _, h2, _⟩ := C13_map (ks := [b!"a"])
    (.array (arr (vs := [b!"{\"a\":1}", b!"{}", b!"{\"a\":3}"]) (by decide +kernel)) (pad _))
    (by intro k hk; simp at hk; subst hk; exact PlainKey.selector (by decide) (by decide)) (by simp)
  refine json_of ⟨w, h1, h2.trans ?_⟩
  rcases hw with _ | ⟨a, hw⟩
  rcases hw with _ | ⟨b, hw⟩
  rcases hw with _ | ⟨c, hw⟩
  cases hw
  have ha := jsonx (x := (true, b!"1")) a (by decide +kernel)
  have hb := jsonx (x := (false, [])) b (by decide +kernel)
  have hc := jsonx (x := (true, b!"3")) c (by decide +kernel)
  simp only [found, List.filter_cons, ha.1, hb.1, hc.1, if_true, Bool.false_eq_true, if_false, List.filter_nil, List.map_cons, ha.2, hc.2, List.map_nil]
  decide

theorem r11 : (Value.f32 ⟨b!"0.1", [], [], INFO_NUMBER, none⟩) = .ok (F64.toF32 (.fin false (3602879701896397 * 2 ^ (1074 - 55)))) := by
  obtain ⟨y, h1, h2⟩ := (C42_f32 ⟨b!"0.1", [], [], INFO_NUMBER, none⟩).1 false (3602879701896397 * 2 ^ (1074 - 55)) (by decide +kernel)
  rw [h1, C42_unique h2 (toF32_rounds false _)]

theorem r12 : Value.cmp ⟨b!"1", [], [], INFO_NUMBER, none⟩ ⟨b!"1", [], [], INFO_NUMBER, none⟩ = .ok .eq :=
  C26_total_order.1 _ ⟨fun h => absurd h (by decide), fun _ => by decide +kernel⟩

theorem r13 : (get b!"{\"a\":1*" b!"a").toOption.map Value.json = some b!"1" := by
  have ha : KeyIs b!"\"a\"" b!"a" := keyIsB_iff.1 (by decide +kernel)
  obtain ⟨w, h1, h2, _⟩ := C56_plain (t := b!"{\"a\":1*") (w := []) (ks := [b!"a"]) (r := b!"1")
    (.key (kl := b!"\"a\"") (w1 := []) (w2 := []) (w3 := []) (ms := []) (t := b!"1*") (by simp) (by simp) (by simp) (by decide) lit_a (by decide) (by decide)
      ha (.here (v := b!"1") (q := b!"*") (value_of_valid (by decide +kernel) (by decide)) (fun _ c hc => by simp at hc; subst hc; decide)))
    (by simp only [List.mem_singleton, forall_eq]; exact ⟨by decide, by decide⟩) (by simp) (by decide)
  exact json_of ⟨w, h1, h2⟩

theorem r14 : (get b!"{\"a\":{\"b\":1," b!"a.b").toOption.map Value.json = some b!"1" := by
  have ha : KeyIs b!"\"a\"" b!"a" := keyIsB_iff.1 (by decide +kernel)
  have hb : KeyIs b!"\"b\"" b!"b" := keyIsB_iff.1 (by decide +kernel)
  obtain ⟨w, h1, h2, _⟩ := C56_plain (t := b!"{\"a\":{\"b\":1,") (w := []) (ks := [b!"a", b!"b"]) (r := b!"1")
    (.key (kl := b!"\"a\"") (w1 := []) (w2 := []) (w3 := []) (ms := []) (t := b!"{\"b\":1,") (by simp) (by simp) (by simp) (by decide) lit_a (by decide) (by decide)
      ha (.key (kl := b!"\"b\"") (w1 := []) (w2 := []) (w3 := []) (ms := []) (t := b!"1,") (by simp) (by simp) (by simp) (by decide) lit_b (by decide) (by decide)
      hb (.here (v := b!"1") (q := b!",") (value_of_valid (by decide +kernel) (by decide)) (fun _ c hc => by simp at hc; subst hc; decide))))
    (by simp only [List.forall_mem_cons]; exact ⟨⟨by decide, by decide⟩, ⟨by decide, by decide⟩, by simp⟩) (by simp) (by decide)
  exact json_of ⟨w, h1, h2⟩

theorem r15 : (get b!"{\"a\":1" b!"a").toOption.map Value.json = some b!"1" := by
  have ha : KeyIs b!"\"a\"" b!"a" := keyIsB_iff.1 (by decide +kernel)
  obtain ⟨w, h1, h2, _⟩ := C56_plain (t := b!"{\"a\":1") (w := []) (ks := [b!"a"]) (r := b!"1")
    (.key (kl := b!"\"a\"") (w1 := []) (w2 := []) (w3 := []) (ms := []) (t := b!"1") (by simp) (by simp) (by simp) (by decide) lit_a (by decide) (by decide)
      ha (.here (v := b!"1") (q := []) (value_of_valid (by decide +kernel) (by decide)) (fun _ c hc => by simp at hc)))
    (by simp only [List.mem_singleton, forall_eq]; exact ⟨by decide, by decide⟩) (by simp) (by decide)
  exact json_of ⟨w, h1, h2⟩

/-- `s` is made of whitespace, punctuation and the tokens `ts`. -/
def tiles (ts : List Bytes) : Nat → Bytes → Bool
  | _, [] => true
  | 0, _ => false
  | n + 1, c :: r =>
    (decide (c ∈ b!" \t\n\r,:]}[{") && tiles ts n r) ||
      ts.any fun t => !t.isEmpty && t.isPrefixOf (c :: r) && tiles ts n ((c :: r).drop t.length)

theorem tiles_tok {ts : List Bytes} {t r : Bytes} (ht : t ∈ ts) (hne : t ≠ []) {n : Nat} (hn : (t ++ r).length ≤ n)
    (h : ∀ m, r.length ≤ m → tiles ts m r = true) : tiles ts n (t ++ r) = true := by
  obtain ⟨c, t', rfl⟩ := List.exists_cons_of_ne_nil hne
  cases n with
  | zero => simp at hn
  | succ n =>
    rw [List.cons_append, tiles, Bool.or_eq_true, List.any_eq_true]
    refine .inr ⟨_, ht, ?_⟩
    rw [← List.cons_append]
    simp only [List.drop_left, Bool.and_eq_true]
    exact ⟨⟨by simp, List.isPrefixOf_iff_prefix.2 (List.prefix_append _ _)⟩, h n (by simp at hn; omega)⟩

theorem tiles_of {ts : List Bytes} {a e : Bool} {s : Bytes} (h : Lexed (· ∈ ts) a s e) : ∀ n, s.length ≤ n → tiles ts n s = true := by
  have key : ∀ {c : UInt8} {r : Bytes}, c ∈ b!" \t\n\r,:]}[{" → (∀ n, r.length ≤ n → tiles ts n r = true) →
      ∀ n, (c :: r).length ≤ n → tiles ts n (c :: r) = true := by
    intro c r hc h n hn
    cases n with
    | zero => simp at hn
    | succ n => rw [tiles, decide_eq_true hc, h n (by simpa using hn)]; rfl
  induction h with
  | nil => intro n _; cases n <;> rfl
  | ws hc _ ih => exact key (by rcases hc with h | h | h | h <;> subst h <;> decide) ih
  | sep hc _ ih => exact key (by revert hc; simp only [List.mem_cons, List.not_mem_nil, or_false]; grind) ih
  | opn hc _ ih => exact key (by revert hc; simp only [List.mem_cons, List.not_mem_nil, or_false]; grind) ih
  | num ht hq _ ih => intro n hn; exact tiles_tok hq (by obtain ⟨c, _, h, _⟩ := NumLit.cons ht; rw [h]; simp) hn ih
  | word ht hq _ ih => intro n hn; exact tiles_tok hq (by rintro rfl; revert ht; decide) hn ih
  | str ht hq _ ih => intro n hn; exact tiles_tok hq (by obtain ⟨b, _, rfl⟩ := ht; simp) hn ih

theorem s01 : (get b!"[[\"ab\"]]" b!"@flatten").toOption.map Value.json ≠ some b!"[\"ab]" := by
  intro h
  cases hg : get b!"[[\"ab\"]]" b!"@flatten" with
  | error e => rw [hg] at h; cases h
  | ok v =>
    rw [hg] at h
    have h : v.json = b!"[\"ab]" := Option.some.inj h
    obtain ⟨e, hl⟩ := C59_json ((C01_valid_iff_rfc8259 _).1 (by decide +kernel)) (by decide) hg
    rw [h] at hl
    have h2 : ∀ {Q a s e}, Lexed Q a s e → s = b!"\"ab]" → False := by
      intro Q a s e hl hs
      cases hl with
      | nil => cases hs
      | ws hc => obtain ⟨rfl, _⟩ := List.cons.inj hs; revert hc; decide
      | sep hc => obtain ⟨rfl, _⟩ := List.cons.inj hs; revert hc; decide
      | opn hc => obtain ⟨rfl, _⟩ := List.cons.inj hs; revert hc; decide
      | num ht =>
        obtain ⟨c, t, rfl, _⟩ := NumLit.cons ht
        obtain ⟨rfl, _⟩ := List.cons.inj hs
        exact absurd (numLit_numCh ht (c! '"') (by simp)) (by decide)
      | word ht => simp at ht; rcases ht with rfl | rfl | rfl <;> cases hs
      | str ht =>
        obtain ⟨b, _, rfl⟩ := ht
        have := congrArg (List.count c! '"') hs
        have e : List.count c! '"' b!"\"ab]" = 1 := by decide
        rw [e, List.count_append, List.count_cons_self, List.count_append, List.count_singleton_self] at this
        omega
    generalize hs : b!"[\"ab]" = s at hl
    cases hl with
    | nil => cases hs
    | ws hc => obtain ⟨rfl, _⟩ := List.cons.inj hs; revert hc; decide
    | sep hc => obtain ⟨rfl, _⟩ := List.cons.inj hs; revert hc; decide
    | opn hc hl => obtain ⟨rfl, rfl⟩ := List.cons.inj hs; exact h2 hl rfl
    | num ht =>
      obtain ⟨c, t, rfl, _⟩ := NumLit.cons ht
      obtain ⟨rfl, _⟩ := List.cons.inj hs
      exact absurd (numLit_numCh ht (c! '[') (by simp)) (by decide)
    | word ht => simp at ht; rcases ht with rfl | rfl | rfl <;> cases hs
    | str ht => obtain ⟨b, _, rfl⟩ := ht; cases hs

theorem s02 : (get b!"[{\"a\":1}]" b!"@join").toOption.map Value.json ≠ some b!"{a:1}" := by
  intro h
  cases hg : get b!"[{\"a\":1}]" b!"@join" with
  | error e => rw [hg] at h; cases h
  | ok v =>
    rw [hg] at h
    have h : v.json = b!"{a:1}" := Option.some.inj h
    obtain ⟨e, hl⟩ := C59_json ((C01_valid_iff_rfc8259 _).1 (by decide +kernel)) (by decide) hg
    rw [h] at hl
    have h2 : ∀ {Q a s e}, Lexed Q a s e → ∀ r, s = b!"a" ++ r → False := by
      intro Q a s e hl r hs
      cases hl with
      | nil => cases hs
      | ws hc => obtain ⟨rfl, _⟩ := List.cons.inj hs; revert hc; decide
      | sep hc => obtain ⟨rfl, _⟩ := List.cons.inj hs; revert hc; decide
      | opn hc => obtain ⟨rfl, _⟩ := List.cons.inj hs; revert hc; decide
      | num ht =>
        obtain ⟨c, t, rfl, _⟩ := NumLit.cons ht
        obtain ⟨rfl, _⟩ := List.cons.inj hs
        exact absurd (numLit_numCh ht (c! 'a') (by simp)) (by decide)
      | word ht => simp at ht; rcases ht with rfl | rfl | rfl <;> cases hs
      | str ht => obtain ⟨b, _, rfl⟩ := ht; cases hs
    generalize hs : b!"{a:1}" = s at hl
    cases hl with
    | nil => cases hs
    | ws hc => obtain ⟨rfl, _⟩ := List.cons.inj hs; revert hc; decide
    | sep hc => obtain ⟨rfl, _⟩ := List.cons.inj hs; revert hc; decide
    | opn hc hl => obtain ⟨rfl, rfl⟩ := List.cons.inj hs; exact h2 hl b!":1}" rfl
    | num ht =>
      obtain ⟨c, t, rfl, _⟩ := NumLit.cons ht
      obtain ⟨rfl, _⟩ := List.cons.inj hs
      exact absurd (numLit_numCh ht (c! '{') (by simp)) (by decide)
    | word ht => simp at ht; rcases ht with rfl | rfl | rfl <;> cases hs
    | str ht => obtain ⟨b, _, rfl⟩ := ht; cases hs

theorem s03 : (get b!" [1,2]" b!"@reverse").toOption.map Value.json = (get b!"[1,2]" b!"@reverse").toOption.map Value.json :=
  json_same (C58_leading (w := b!" ") (by decide) b!"[1,2]" b!"@reverse")

theorem s04 : (prettyOptions b!"[[[[1]]]]" ⟨0, b!"12345678", [], false⟩).toOption.map
    (fun out => decide (out.length > 195)) ≠ some true := by
  intro h
  cases hg : prettyOptions b!"[[[[1]]]]" ⟨0, b!"12345678", [], false⟩ with
  | error e => rw [hg] at h; cases h
  | ok out =>
    rw [hg] at h
    have h := of_decide_eq_true (Option.some.inj h)
    have := C57_pretty hg
    simp at this h
    omega

theorem s05 : (get b!"\"\\n\x01\x01\x01\x01\x01\x01\x01\x01\x01\x01\x01\x01\"" b!"@this" >>= Value.str).toOption.map (fun s => decide (s.length > 34)) ≠ some true := by
  intro h
  cases hg : get b!"\"\\n\x01\x01\x01\x01\x01\x01\x01\x01\x01\x01\x01\x01\"" b!"@this" with
  | error e => rw [hg] at h; cases h
  | ok v =>
    rw [hg, ok_bind] at h
    cases hs : v.str with
    | error e => rw [hs] at h; cases h
    | ok s =>
      rw [hs] at h
      have h := of_decide_eq_true (Option.some.inj h)
      have hl : v.json.length ≤ 34 := by
        exact C57_modifier (n := b!"this") (a := []) (.bare (by decide)) (by decide) hg
      rcases C57_string hg hs with h1 | rfl | rfl
      · omega
      · exact absurd h (by decide)
      · exact absurd h (by decide)

theorem s06 : (get b!"1 " b!"@this").toOption.map Value.json = (get b!"1" b!"@this").toOption.map Value.json :=
  json_same (C58_scalar (v := b!"1") (value_of_valid (by decide +kernel) (by decide)) (by decide) (d1 := b!"1 ") (d2 := b!"1")
    ⟨[], b!" ", by decide, by decide, rfl⟩ ⟨[], [], by decide, by decide, rfl⟩ b!"@this")

theorem s07 : (pretty b!"[1e+5]").toOption.map (fun out => tiles [b!"1e+5"] out.length out) ≠ some false := by
  intro h
  cases hg : pretty b!"[1e+5]" with
  | error e => rw [hg] at h; cases h
  | ok out =>
    rw [hg] at h
    have ht : InTokens (· ∈ [b!"1e+5"]) b!"[1e+5]" :=
      ⟨true, .opn (by decide) (.num (t := b!"1e+5") ⟨[], b!"1", [], b!"e+5", rfl, .inl rfl, .inr ⟨_, [], rfl, by decide, by decide, by simp⟩, .inl rfl,
        .inr ⟨c! 'e', b!"+", b!"5", rfl, .inl rfl, .inr (.inl rfl), by decide, by decide⟩⟩ (by decide) (.sep (by decide) .nil))⟩
    obtain ⟨e, hl⟩ := (C59_formats ht).2 _ (by decide) (by decide) out hg
    have h : tiles [b!"1e+5"] out.length out = false := Option.some.inj h
    rw [tiles_of hl _ (Nat.le_refl _)] at h
    cases h

theorem s08 : (get b!"\n1\n2" b!"..#").toOption.map Value.json = (get b!"1\n2" b!"..#").toOption.map Value.json :=
  json_same (C58_leading (w := b!"\n") (by decide) b!"1\n2" b!"..#")

theorem s09 : (parse b!"\"a\"" >>= fun v => v.get b!"@this").toOption.map Value.json = (get b!"\"a\"" b!"@this").toOption.map Value.json := by
  obtain ⟨v, h1, h2⟩ := C58_parse_get (doc := b!"\"a\"") ((C01_valid_iff_rfc8259 _).1 (by decide +kernel)) b!"@this"
  rw [h1, ok_bind]
  exact json_same h2

theorem s10 : (ugly b!"[\"\\\\\" , \"a b\"]").toOption.map (fun out => tiles [b!"\"\\\\\"", b!"\"a b\""] out.length out) = some true := by
  have ht : InTokens (· ∈ [b!"\"\\\\\"", b!"\"a b\""]) b!"[\"\\\\\" , \"a b\"]" :=
    ⟨true, .opn (by decide) (.str (t := b!"\"\\\\\"") ⟨b!"\\\\", .esc (by decide) .nil, rfl⟩ (by decide) (.ws (by decide) (.sep (by decide)
      (.ws (by decide) (.str (t := b!"\"a b\"") ⟨b!"a b", .plain (by decide) (by decide) (by decide) (.plain (by decide) (by decide) (by decide)
        (.plain (by decide) (by decide) (by decide) .nil)), rfl⟩ (by decide) (.sep (by decide) .nil))))))⟩
  obtain ⟨⟨out, h, e, hl⟩, _⟩ := C59_formats ht
  rw [h]
  exact congrArg some (tiles_of hl _ (Nat.le_refl _))

/-- What is said of an array value and its elements, for one text. -/
def listed (text : Bytes) (f : Value → List Value → Bool) : Res Bool :=
  parse text >>= fun v => v.array >>= fun vs => .ok (if v.kind = .array then f v vs else true)

theorem listed_ne {text : Bytes} {f : Value → List Value → Bool}
    (h : ∀ v vs, Handed v → v.kind = .array → v.array = .ok vs → f v vs = true) : listed text f ≠ .ok false := by
  intro e
  obtain ⟨v, h1, h2⟩ := bind_eq_ok.1 e
  obtain ⟨vs, h3, h4⟩ := bind_eq_ok.1 h2
  by_cases hk : v.kind = .array
  · rw [if_pos hk, h v vs (.parse h1) hk h3] at h4; cases h4
  · rw [if_neg hk] at h4; cases h4

theorem t01 : listed b!"[1 2 3" (fun v vs => (v.get b!"#").toOption.map Value.json = some (numeral vs.length)) ≠ .ok false :=
  listed_ne fun _ _ h hk ha => by
    obtain ⟨w, h1, _, h2⟩ := C60_count h hk ha
    exact decide_eq_true (json_of ⟨w, h1, h2⟩)

theorem t02 : listed b!" [1 2 3" (fun v vs => (v.get b!"0").toOption.map Value.json = some ((vs[0]?.map Value.json).getD [])) ≠ .ok false :=
  listed_ne fun _ vs h hk ha => by
    obtain ⟨w, h1, h2, h3⟩ := C60_index h hk ha (k := b!"0") (n := 0) (by decide) ⟨b!"0", by decide, by decide, by decide, .inl rfl⟩ (by decide)
    refine decide_eq_true (json_of ⟨w, h1, ?_⟩)
    cases e : vs[0]? with
    | none => exact Classical.byContradiction fun hn => by have := h3 e; rw [exists_json.2 hn] at this; cases this
    | some x => exact (h2 x e).2.json

theorem t03 : (get b!"[1,2,4]" b!"..#").toOption.map Value.json = (get b!"[[1,2,4]" b!"#").toOption.map Value.json :=
  json_same (C60_lines b!"[1,2,4]" (path := b!"#") (by decide) (by decide))

theorem t04 : listed b!"[1,2,3]" (fun v vs => (v.get b!"+1").toOption.map Value.json = some ((vs[1]?.map Value.json).getD [])) ≠ .ok false :=
  listed_ne fun _ vs h hk ha => by
    obtain ⟨w, h1, h2, h3⟩ := C60_index h hk ha (k := b!"+1") (n := 1) (by decide) ⟨b!"1", by decide, by decide, by decide, .inr (.inl rfl)⟩ (by decide)
    refine decide_eq_true (json_of ⟨w, h1, ?_⟩)
    cases e : vs[1]? with
    | none => exact Classical.byContradiction fun hn => by have := h3 e; rw [exists_json.2 hn] at this; cases this
    | some x => exact (h2 x e).2.json

theorem t05 : (get b!"{\"aa\":1,\"ab\":2}" b!"ab").toOption.map Value.json = (parse b!"2").toOption.map Value.json := by
  have ho : IsObject b!"{\"aa\":1}" [(b!"\"aa\"", b!"1")] :=
    .inr ⟨[⟨[], b!"\"aa\"", [], [], b!"1", []⟩], by simp, by
      simp only [List.mem_singleton, forall_eq]; exact ⟨by simp [Ws], lit_aa, by simp [Ws], by simp [Ws], by simp [Ws]⟩, by
      simp only [List.mem_singleton, forall_eq]; exact val (by decide +kernel), rfl, rfl⟩
  have ha : KeyIs b!"\"aa\"" b!"aa" := keyIsB_iff.1 (by decide +kernel)
  have hb : KeyIs b!"\"ab\"" b!"ab" := keyIsB_iff.1 (by decide +kernel)
  have h := json_same (C61_added_member (x := b!"2") (kl := b!"\"ab\"") (v := b!"{\"aa\":1}") (t := b!"{\"aa\":1}") (a := []) (b := []) (ks := []) (w1 := []) (w2 := []) (body := b!"\"aa\":1")
    (k := b!"ab") .here rfl ho (by simp) lit_ab (val (by decide +kernel))
    (by simp only [List.mem_singleton, forall_eq]; exact ⟨_, ha, by decide⟩) hb (by simp [Ws]) (by simp [Ws])
    (by simp only [List.nil_append, List.mem_singleton, forall_eq]; exact ⟨by decide, by decide⟩))
  simp only [List.nil_append, List.append_nil, List.cons_append, dotPath] at h
  exact h

theorem t06 : (parse b!"\"a\\n\"" >>= fun v => v.each (fun (acc : List (Value × Value)) k x => .ok (acc ++ [(k, x)], true)) [] >>= fun l =>
    .ok (l.all fun p => !p.2.exists || decide (some p.2.str = (parse p.2.json).toOption.map Value.str))) ≠ .ok false := by
  intro e
  obtain ⟨v, h1, h2⟩ := bind_eq_ok.1 e
  obtain ⟨l, h3, h4⟩ := bind_eq_ok.1 h2
  have : (l.all fun p => !p.2.exists || decide (some p.2.str = (parse p.2.json).toOption.map Value.str)) = true := by
    refine List.all_eq_true.2 fun p hp => ?_
    cases hx : p.2.exists with
    | false => rfl
    | true =>
      obtain ⟨w, h5, h6⟩ := C62_text (.entry (.parse h1) h3 (k := p.1) (e := p.2) hp) hx
      rw [h5]
      exact decide_eq_true (congrArg some h6.str)
  rw [this] at h4; cases h4

theorem t07 : (get b!"[truth]" b!"0" >>= fun v => .ok (!v.exists || decide (v.kind = kindOf v.json))) ≠ .ok false := by
  intro e
  obtain ⟨v, h1, h2⟩ := bind_eq_ok.1 e
  cases hx : v.exists with
  | false => rw [hx] at h2; cases h2
  | true => rw [hx, C62_kind (.get h1) hx] at h2; simp at h2

theorem t08 : (parse b!"[1" >>= fun v => .ok (v.exists || decide (v.kind = .null ∨ v.kind = .string))) ≠ .ok false := by
  intro e
  obtain ⟨v, h1, h2⟩ := bind_eq_ok.1 e
  cases hx : v.exists with
  | true => rw [hx] at h2; cases h2
  | false => rw [hx, decide_eq_true (C62_missing (.parse h1) hx)] at h2; cases h2

/-- What is said of an object value, its pairs and what `get` finds in it, for one text and path. -/
def paired (text path : Bytes) (f : List (Value × Value) → Value → Bool) : Res Bool :=
  parse text >>= fun v => v.pairs >>= fun ps => v.get path >>= fun w =>
    .ok (if v.kind = .object ∧ valid v.json = .ok true then f ps w else true)

theorem paired_ne {text path : Bytes} {f : List (Value × Value) → Value → Bool}
    (h : ∀ v ps w, Handed v → v.kind = .object → valid v.json = .ok true → v.pairs = .ok ps → v.get path = .ok w → f ps w = true) :
    paired text path f ≠ .ok false := by
  intro e
  obtain ⟨v, h1, h2⟩ := bind_eq_ok.1 e
  obtain ⟨ps, h3, h4⟩ := bind_eq_ok.1 h2
  obtain ⟨w, h5, h6⟩ := bind_eq_ok.1 h4
  by_cases hk : v.kind = .object ∧ valid v.json = .ok true
  · rw [if_pos hk, h v ps w (.parse h1) hk.1 hk.2 h3 h5] at h6; cases h6
  · rw [if_neg hk] at h6; cases h6

/-- The text of the first pair with a key, empty if there is none. -/
def firstText (s : Bytes) : List (Value × Value) → Bytes
  | [] => []
  | p :: ps => if p.1.str = .ok s then p.2.json else firstText s ps

theorem firstText_none {s : Bytes} : ∀ {ps : List (Value × Value)}, (∀ q ∈ ps, q.1.str ≠ .ok s) → firstText s ps = []
  | [], _ => rfl
  | p :: ps, h => by
    rw [firstText, if_neg (h p (by simp))]
    exact firstText_none fun q hq => h q (by simp [hq])

theorem firstText_some {s : Bytes} {p : Value × Value} {after : List (Value × Value)} (hp : p.1.str = .ok s) :
    ∀ {before : List (Value × Value)}, (∀ q ∈ before, q.1.str ≠ .ok s) → firstText s (before ++ p :: after) = p.2.json
  | [], _ => by rw [List.nil_append, firstText, if_pos hp]
  | q :: before, h => by
    rw [List.cons_append, firstText, if_neg (h q (by simp))]
    exact firstText_some hp fun r hr => h r (by simp [hr])

theorem paired_key {text s : Bytes} (hq : c! '?' ∉ s) : paired text (escapeKey s) (fun ps w => w.json = firstText s ps) ≠ .ok false :=
  paired_ne fun v ps w h hk hv ha hw => by
    obtain ⟨w', g1, g2, g3⟩ := C63_key h hk hv ha hq
    rw [hw] at g1
    cases g1
    refine decide_eq_true ?_
    rcases first_split (fun q : Value × Value => q.1.str = .ok s) ps with hno | ⟨before, p, after, eps, hp, hb⟩
    · rw [firstText_none hno]
      exact Classical.byContradiction fun hn => by have := g3 hno; rw [exists_json.2 hn] at this; cases this
    · rw [eps, firstText_some hp hb]
      exact (g2 before p after eps hp hb).2.json

theorem u01 : paired b!"{\"c\\u0064\":1}" (escapeKey b!"cd") (fun ps w => w.json = firstText b!"cd" ps) ≠ .ok false := paired_key (by decide)

theorem u02 : paired b!"{\"a\":1,\"a\":2}" (escapeKey b!"a") (fun ps w => w.json = firstText b!"a" ps) ≠ .ok false := paired_key (by decide)

theorem u03 : paired b!"{\"a\":null,\"b\":1}" (escapeKey b!"b") (fun ps w => w.json = firstText b!"b" ps) ≠ .ok false := paired_key (by decide)

theorem u04 : paired b!"{\"x.y\":1}" (escapeKey b!"x.y") (fun ps w => w.json = firstText b!"x.y" ps) ≠ .ok false := paired_key (by decide)

/-- What is found in the elements of an array in an object, for one text. -/
def below (text : Bytes) (path : Bytes) : Res Bool :=
  parse text >>= fun v => v.pairs >>= fun ps => match ps with
    | [p] => p.2.array >>= fun vs => match vs with
      | [_, x] => get text path >>= fun w => .ok (if v.kind = .object ∧ p.2.kind = .array ∧ p.1.str = .ok b!"a" then w.json = x.json else true)
      | _ => .ok true
    | _ => .ok true

theorem below_ne {text path : Bytes} (h : ∀ v x, parse text = .ok v → HandedDown v [b!"a", b!"1"] x → ∃ w, get text path = .ok w ∧ SameValue w x) :
    below text path ≠ .ok false := by
  intro e
  obtain ⟨v, h1, h2⟩ := bind_eq_ok.1 e
  obtain ⟨ps, h3, h4⟩ := bind_eq_ok.1 h2
  split at h4 <;> try cases h4
  rename_i p
  obtain ⟨vs, h5, h6⟩ := bind_eq_ok.1 h4
  split at h6 <;> try cases h6
  rename_i y x
  obtain ⟨w, h7, h8⟩ := bind_eq_ok.1 h6
  by_cases hk : v.kind = .object ∧ p.2.kind = .array ∧ p.1.str = .ok b!"a"
  · obtain ⟨w', g1, g2⟩ := h v x h1 (.member (s := b!"a") (before := []) (after := []) hk.1 h3 hk.2.2 (by simp) (by decide)
      (.element (n := 1) hk.2.1 h5 rfl (by decide) .here))
    rw [h7] at g1
    cases g1
    rw [if_pos hk, decide_eq_true g2.json] at h8
    cases h8
  · rw [if_neg hk] at h8; cases h8

theorem u05 : below b!"{\"a\":[[1],2]}" b!"a|1" ≠ .ok false :=
  below_ne fun v x h hr => by
    obtain ⟨w, h1, _, h2⟩ := C63_document ((C01_valid_iff_rfc8259 _).1 (by decide +kernel)) h hr (by simp)
    exact ⟨w, h1, h2⟩

theorem u06 : below b!"{\"a\":[[1],2]}" b!"a.1" ≠ .ok false :=
  below_ne fun v x h hr => by
    obtain ⟨w, h1, _, h2⟩ := C63_dotted ((C01_valid_iff_rfc8259 _).1 (by decide +kernel)) h hr (by simp) (by decide)
    exact ⟨w, h1, h2⟩

/-! Cuts of paths and queries (C64, C65). -/

theorem v01 : Path.new b!"#(a)#x" = .ok ⟨[], false, false, 0, 0, []⟩ :=
  (C64_exact _ _).2 (CutUp.badAfter (b := b!"a") (h := b!"#") (.plain (by decide) .nil) (.inr ⟨rfl, by decide⟩))

theorem v02 : Path.new b!"a\\" = .ok ⟨b!"a\\", true, false, 0, 0, []⟩ :=
  (C64_exact _ _).2 (CutUp.keyBackslash (k := b!"a") (.plain (by decide) (by decide) .nil) (by decide))

theorem v03 : Path.new b!"@m:[1]x.c" = .ok ⟨b!"@m:[1]x.c", false, false, 0, 2, b!"x.c"⟩ :=
  (C64_exact _ _).2 (CutUp.argumentMore (k := b!"m") (g := b!"[1]") (.plain (by decide) (by decide) (.plain (by decide) (by decide) .nil))
    (.inl ⟨c! '[', b!"1", c! ']', by decide, by decide, .plain (by decide) .nil, rfl⟩) (by decide) (by decide))

theorem v04 : Path.new b!"@m:x.a" = .ok ⟨b!"@m:x", false, false, c! '.', 2, b!"a"⟩ :=
  (C64_exact _ _).2 (CutUp.argument (k := b!"m") (a := b!"x") (t := b!".a") (.plain (by decide) (by decide) (.plain (by decide) (by decide) .nil))
    (by decide) (by decide) (.sep (by decide)))

theorem v05 : Path.new b!"[a]b.c" = .ok ⟨b!"[a]", false, false, 0, 0, []⟩ :=
  (C64_exact _ _).2 (CutUp.multiMore (g := b!"[a]") ⟨c! '[', b!"a", c! ']', by decide, by decide, .plain (by decide) .nil, rfl⟩ (by decide) (by decide))

theorem v06 : Path.new b!"#|0" = .ok ⟨b!"#", false, false, c! '|', 0, b!"0"⟩ :=
  (C64_exact _ _).2 (CutUp.count (.sep (by decide)))

theorem trimOf_id {s : Bytes} (h : Trimmed s) : TrimOf s s := ⟨[], [], by simp, by simp [Blank], by simp [Blank], h⟩

theorem v07 : Path.queryParts ⟨b!"#(a!%b)", false, false, 0, 0, []⟩ = .ok (b!"a", b!"!%", b!"b") :=
  (C65_exact _ _ _ _).2 (QueryCut.query (q := b!"a!%b") (h := []) (.inl rfl) (trimOf_id ⟨by decide, by decide⟩)
    (.other (by decide) (by decide) (.op (by decide) (.notTwo (by decide)))) (trimOf_id ⟨by decide, by decide⟩) (trimOf_id ⟨by decide, by decide⟩))

theorem v08 : Path.queryParts ⟨b!"#(a)(b=1)", false, false, 0, 0, []⟩ = .ok (b!"a)(b", b!"=", b!"1") :=
  (C65_exact _ _ _ _).2 (QueryCut.query (q := b!"a)(b=1") (h := []) (.inl rfl) (trimOf_id ⟨by decide, by decide⟩)
    (.other (by decide) (by decide) (.closed (.opened (.other (by decide) (by decide) (.op (by decide) (.compare (by decide) (by decide)))))))
    (trimOf_id ⟨by decide, by decide⟩) (trimOf_id ⟨by decide, by decide⟩))

theorem v09 : Path.queryParts ⟨b!"#(a)b=1)", false, false, 0, 0, []⟩ = .ok (b!"a)b", b!"=", b!"1") :=
  (C65_exact _ _ _ _).2 (QueryCut.query (q := b!"a)b=1") (h := []) (.inl rfl) (trimOf_id ⟨by decide, by decide⟩)
    (.other (by decide) (by decide) (.closed (.other (by decide) (by decide) (.op (by decide) (.compare (by decide) (by decide))))))
    (trimOf_id ⟨by decide, by decide⟩) (trimOf_id ⟨by decide, by decide⟩))

theorem v10 : Path.queryParts ⟨b!"#(ab#", false, false, 0, 0, []⟩ = .ok ([], [], []) :=
  (C65_exact _ _ _ _).2 (.none fun q => by
    constructor <;> intro h <;> have := congrArg List.reverse h <;> simp at this)

theorem v11 : Path.queryParts ⟨b!"#(a= 1)", false, false, 0, 0, []⟩ = .ok (b!"a", b!"=", b!"1") :=
  (C65_exact _ _ _ _).2 (QueryCut.query (q := b!"a= 1") (h := []) (.inl rfl) (trimOf_id ⟨by decide, by decide⟩)
    (.other (by decide) (by decide) (.op (by decide) (.compare (by decide) (by decide)))) (trimOf_id ⟨by decide, by decide⟩)
    ⟨b!" ", [], rfl, by simp [Blank], by simp [Blank], by decide, by decide⟩)

theorem v12 : Path.queryParts ⟨b!"#(a\\=b)", false, false, 0, 0, []⟩ = .ok (b!"a\\=b", [], []) :=
  (C65_exact _ _ _ _).2 (QueryCut.query (q := b!"a\\=b") (h := []) (.inl rfl) (trimOf_id ⟨by decide, by decide⟩)
    (.other (by decide) (by decide) (.esc (.other (by decide) (by decide) .none))) (trimOf_id ⟨by decide, by decide⟩) (trimOf_id ⟨by decide, by decide⟩))

/-! Arrays, objects, modifiers and multipaths with any bytes as a path (C66, C67, C68). -/

/-- The entries that `each_comp` finds between brackets. -/
def entries (s : Bytes) : Res (List (Bytes × Bytes)) :=
  eachComp (c! '[' :: (s ++ b!"]")) (fun (st : List (Bytes × Bytes)) k p => .ok (st ++ [(k, p)])) []

theorem entries_of {s : Bytes} {es : List (Bytes × Bytes)} (h : EntriesOf s es) : entries s = .ok es := (C68_each s es _ _).2 h

theorem pieces_plain {stop p : Bytes} (h : ∀ c ∈ p, c ∉ b!"\\([{" ∧ c ∉ stop) : Pieces stop p := by
  induction p with
  | nil => exact .nil
  | cons c r ih =>
    have := h c List.mem_cons_self
    exact .plain this.1 this.2 (ih fun x hx => h x (List.mem_cons_of_mem _ hx))

theorem w01 : entries b!"a(b,c)" = .ok [(b!"_", b!"a(b,c)")] :=
  entries_of (.last (.closed (.plain (by decide) (by decide) (.group (g := b!"(b,c)")
    ⟨c! '(', b!"b,c", c! ')', by decide, by decide, .plain (by decide) (.plain (by decide) (.plain (by decide) .nil)), rfl⟩ .nil)))
    (.other (last_plain (by decide)) (by unfold SimpleName; decide)))

theorem w02 : entries b!"a\\" = .ok [] := entries_of (.lost (p := b!"a") (pieces_plain (by decide)))

theorem w03 : entries b!"a:b:c" = .ok [(b!"a:b", b!"c")] :=
  entries_of (.lastNamed (k := b!"a:b") (p := b!"c") (pieces_plain (by decide)) (.closed (pieces_plain (by decide))))

theorem w04 : get b!"{\"a\":1}" b!"[a}.[x]" = .ok Value.default :=
  C68_wrong (CutUp.multi (g := b!"[a}") (t := b!".[x]") ⟨c! '[', b!"a", c! '}', by decide, by decide, .plain (by decide) .nil, rfl⟩
    (by decide) (.sep (by decide))) _ (.inl (by decide))

theorem w05 : (get b!"7" b!"@this:x").toOption.map Value.json = some b!"7" := by
  obtain ⟨p, v, h1, h2, h3, _⟩ := C68_this (CutUp.argument (k := b!"this") (a := b!"x") (t := [])
    (.plain (by decide) (by decide) (.plain (by decide) (by decide) (.plain (by decide) (by decide)
      (.plain (by decide) (by decide) (.plain (by decide) (by decide) .nil))))) (by decide) (by decide) .nothing)
    b!"7" (.arg (n := b!"this"))
  obtain ⟨_, x, _, g1, _, _, _, g2⟩ := C40_parse b!"7" [] [] (val (by decide +kernel)) (by simp [Ws]) (by simp [Ws])
  obtain rfl : p = x := Except.ok.inj (h1.symm.trans g1)
  exact json_of ⟨v, h3, h2.json.trans (g2 (by decide) (by decide)).1⟩

theorem w06 : entries b!"a.#" = .ok [(b!"_", b!"a.#")] :=
  entries_of (.last (.closed (pieces_plain (by decide)))
    (.other (LastName.after (a := b!"a") (k := b!"#") (.inl rfl) (by decide) (last_part (by decide))) (by unfold SimpleName; decide)))

theorem w07 : entries b!"a\\.b" = .ok [(b!"a\\.b", b!"a\\.b")] :=
  entries_of (.last (.closed (.plain (by decide) (by decide) (.esc (pieces_plain (by decide)))))
    (.last (.whole (by
        intro a s r e hs
        match a, e with
        | [], e => simp at e; rcases hs with rfl | rfl <;> simp at e
        | [x], e => simp at e; rcases hs with rfl | rfl <;> simp at e
        | [x, y], e => simp at e; simp [← e.2.1]
        | x :: y :: z :: a, e =>
          simp at e
          have : s ∈ b!"b" := by rw [show b!"b" = [98] from rfl, e.2.2.2]; simp
          rcases hs with rfl | rfl <;> exact absurd this (by decide)))
      (by unfold SimpleName; decide)))

/-- The group, the separator behind it and the rest. -/
def group (s : Bytes) : Res (Bytes × UInt8 × Bytes) := (⟨[], false, false, c! '.', 0, s⟩ : Path).nextGroup >>= fun r => .ok (r.1, r.2.sep, r.2.extra)

theorem group_of {s g r : Bytes} {sep : UInt8} (h : GroupOf s g sep r) : group s = .ok (g, sep, r) := by
  obtain ⟨q, h1, rfl, rfl⟩ := (C66_group ⟨[], false, false, c! '.', 0, s⟩ rfl g r sep).2 h
  unfold group
  rw [h1]
  rfl

theorem w08 : group b!"a|b" = .ok (b!"a", c! '|', b!"b") :=
  group_of (.last (CutUp.key (k := b!"a") (t := b!"|b") (.plain (by decide) (by decide) .nil) (by decide) (.sep (by decide))) (by decide))

theorem w09 : (get b!"[1,2]" b!"#|@this").toOption.map Value.json = some b!"2" := by
  obtain ⟨x, h1, _, _, h2, h3⟩ := C66_count (Sequence.array (arr (vs := [b!"1", b!"2"]) (by decide +kernel)) (pad _))
    (CutUp.count (t := b!"|@this") (.sep (c := c! '|') (by decide))) (by decide)
  have h1 : get b!"[1,2]" b!"#|@this" = x.get b!"@this" := h1
  have h2 : x.json = b!"2" := h2.trans (by decide)
  obtain ⟨v, h4, h5⟩ := C34_this_json (val (v := b!"2") (by decide +kernel))
  rw [h1, json_same (h3 _), h2, h4]
  exact congrArg some h5.1

theorem w10 : (get b!"{\"a\":{\"a\":{\"b\":7}}}" b!"a.b").toOption.map Value.json = some b!"7" := by
  have h1 : IsObject b!"{\"b\":7}" [(b!"\"b\"", b!"7")] := obj (kvs := [(b!"b", b!"7")]) (by decide +kernel)
  have h2 : IsObject b!"{\"a\":{\"b\":7}}" [(b!"\"a\"", b!"{\"b\":7}")] := obj (kvs := [(b!"a", b!"{\"b\":7}")]) (by decide +kernel)
  have h3 : IsObject b!"{\"a\":{\"a\":{\"b\":7}}}" [(b!"\"a\"", b!"{\"a\":{\"b\":7}}")] :=
    obj (kvs := [(b!"a", b!"{\"a\":{\"b\":7}}")]) (by decide +kernel)
  have c1 : CutUp b!"a.b" ⟨b!"a", false, false, c! '.', 0, b!"b"⟩ :=
    CutUp.key (k := b!"a") (t := b!".b") (.plain (by decide) (by decide) .nil) (by decide) (.sep (by decide))
  have c2 : CutUp b!"b" ⟨b!"b", false, false, 0, 0, []⟩ := CutUp.key (k := b!"b") (t := []) (.plain (by decide) (by decide) .nil) (by decide) .nothing
  have ka : KeyIs b!"\"a\"" b!"a" := keyIsB_iff.1 (by decide +kernel)
  have kb : KeyIs b!"\"b\"" b!"b" := keyIsB_iff.1 (by decide +kernel)
  have na : ¬ libAsks.hit b!"b" (false || false) b!"\"a\"" := by
    rintro ⟨s, g1, g2⟩
    have : s = b!"b" := g2
    exact absurd (keyIsB_iff.2 (this ▸ g1)) (by decide +kernel)
  have nc : ¬ Computes b!"b" := by unfold Computes; decide
  have hs : Seek libAsks b!"{\"a\":{\"a\":{\"b\":7}}}" ⟨b!"a", false, false, c! '.', 0, b!"b"⟩ (some ⟨b!"7", 0, []⟩) :=
    .obj h3 (.again ⟨_, ka, rfl⟩ rfl (.inl (by decide)) c2 nc (.obj h2 (.skip na .nil)) (.obj h2)
      (.into ⟨_, ka, rfl⟩ rfl (.inl (by decide)) c2 nc (.obj h1 (.scalar ⟨_, kb, rfl⟩ (by decide) (by decide)))))
  have := C67_found (val (by decide +kernel)) (pad _) c1 (by decide) (by unfold Computes; decide) hs
  rw [if_pos rfl] at this
  obtain ⟨u, g1, g2⟩ := this
  exact json_of ⟨u, g1, g2.1⟩

theorem x01 : unescape b!"\"a\"b\"" = .ok b!"a\"b" :=
  (C69_unescape b!"a\"b" _).2 (.plain (by decide) (by decide) (.plain (by decide) (by decide) (.plain (by decide) (by decide) (.ends .nil))))

theorem x02 : unescape b!"\"\\u12x4\"" = .ok [0xEF, 0xBF, 0xBD] :=
  (C69_unescape b!"\\u12x4" (utf8 0xFFFD ++ [])).2 (.noNumber (r := []) (by unfold Quad; decide) (.ends .nil))

theorem x03 : unescape b!"\"\\u+041\"" = .ok b!"A" :=
  (C69_unescape b!"\\u+041" (utf8 0x41 ++ [])).2 (.bmp (u := 0x41) (r := []) (by unfold Quad; decide) (by unfold IsSurrogate; decide) (.ends .nil))

theorem x04 : unescape b!"\"ab\\u12\"" = .ok b!"ab" :=
  (C69_unescape b!"ab\\u12" _).2 (.plain (by decide) (by decide) (.plain (by decide) (by decide) (.ends (.short (by decide)))))

theorem x05 : unescape b!"ab" = .ok [] := C69_unescape_other fun b h => absurd (congrArg List.head? h) (by simp)

theorem balanced_plain {q : Bytes} (h : ∀ c ∈ q, c ∉ bracketSpecial) : Balanced q := by
  induction q with
  | nil => exact .nil
  | cons c r ih => exact .plain (h c List.mem_cons_self) (ih fun x hx => h x (List.mem_cons_of_mem _ hx))

theorem obtained {doc path r : Bytes} (h : Obtains doc path r) : (get doc path).toOption.map Value.json = some r := by
  obtain ⟨v, h1, h2, _⟩ := C71_sound h
  exact json_of ⟨v, h1, h2⟩

theorem queried {n : Nat} {vs : List Bytes} {q lh op rh : Bytes} {test : Bytes → Bool} (hv : ∀ v ∈ vs, valid v = .ok true ∧ trimmed v = true)
    (hb : Balanced q) (hq : QueryCut (b!"#(" ++ q ++ b!")") lh op rh) (ht : ∀ v ∈ vs, (asksOf (ObtainsAt n)).holds lh op rh v (test v)) :
    Obtains (arrayText vs) (b!"#(" ++ q ++ b!")") ((vs.find? test).getD []) := by
  have hc := CutUp.query (t := []) hb (.inl rfl) .nothing
  rw [List.append_nil, List.append_nil] at hc
  refine ⟨n + 1, .look (pad _) (IsArray.isValue (arr hv)) ?_ hc ?_ (.arr (arr hv) (.first hq ht)) ?_⟩
  · rintro ⟨t, h⟩
    exact absurd (congrArg List.head? h) (by simp)
  · rintro ⟨c, h1, h2⟩
    simp at h1
    subst h1
    exact absurd h2 (by decide)
  · cases vs.find? test with
    | none => exact .done
    | some v => exact .done

theorem x06 : (get b!"[\"\"]" b!"#(=\"\")").toOption.map Value.json = some [] := by
  refine obtained (queried (n := 0) (vs := [b!"\"\""]) (q := b!"=\"\"") (test := fun _ => false) (by decide +kernel)
    (.plain (by decide) (.str (b := []) .nil .nil))
    (QueryCut.query (q := b!"=\"\"") (h := []) (.inl rfl) (trimOf_id ⟨by decide, by decide⟩) (.op (by decide) (.compare (by decide) (by decide)))
      (trimOf_id ⟨by decide, by decide⟩) (trimOf_id ⟨by decide, by decide⟩)) ?_)
  intro v hv
  simp only [List.mem_singleton] at hv
  subst hv
  refine ⟨b!"\"\"", ⟨val (by decide +kernel), rfl⟩, .plain (r := b!"\"\"") (.self fun b h => ?_) (by decide)
    (.string (by decide) (.string (b := []) .nil (show Told [] [] by unfold Told; rw [if_neg (by decide)])))
    (.string (op := .eq) (by show _ ↔ ([] : Bytes) = b!"\"\""; decide))⟩
  have h1 := congrArg List.length h
  simp at h1
  exact h1

theorem x07 : (get b!"[{\"a\":1}]" b!"#(b!=1)").toOption.map Value.json = some [] := by
  have ho : IsObject b!"{\"a\":1}" [(b!"\"a\"", b!"1")] := obj (kvs := [(b!"a", b!"1")]) (by decide +kernel)
  refine obtained (queried (n := 1) (vs := [b!"{\"a\":1}"]) (q := b!"b!=1") (test := fun _ => false) (by decide +kernel)
    (balanced_plain (by decide))
    (QueryCut.query (q := b!"b!=1") (h := []) (.inl rfl) (trimOf_id ⟨by decide, by decide⟩)
      (.other (by decide) (by decide) (.op (by decide) (.notTwo (by decide)))) (trimOf_id ⟨by decide, by decide⟩) (trimOf_id ⟨by decide, by decide⟩)) ?_)
  intro v hv
  simp only [List.mem_singleton] at hv
  subst hv
  refine ⟨[], ?_, .plain (r := b!"1") (.self fun b h => absurd (congrArg List.head? h) (by simp)) (by decide) .missing .missing⟩
  refine ObtainsBy.look (pad _) (val (by decide +kernel)) (by decide)
    (CutUp.key (k := b!"b") (t := []) (.plain (by decide) (by decide) .nil) (by decide) .nothing) (by unfold Computes; decide)
    (.obj ho (.skip ?_ .nil)) .done
  rintro ⟨s, h1, h2⟩
  have h2 : s = b!"b" := h2
  subst h2
  exact absurd (keyIsB_iff.2 (content_keyIs h1)) (by decide +kernel)

theorem x08 : (get b!"[null]" b!"#(!=1)").toOption.map Value.json = some [] := by
  refine obtained (queried (n := 0) (vs := [b!"null"]) (q := b!"!=1") (test := fun _ => false) (by decide +kernel)
    (balanced_plain (by decide))
    (QueryCut.query (q := b!"!=1") (h := []) (.inl rfl) (trimOf_id ⟨by decide, by decide⟩)
      (.op (by decide) (.notTwo (by decide))) (trimOf_id ⟨by decide, by decide⟩) (trimOf_id ⟨by decide, by decide⟩)) ?_)
  intro v hv
  simp only [List.mem_singleton] at hv
  subst hv
  exact ⟨b!"null", ⟨val (by decide +kernel), rfl⟩, .plain (r := b!"1") (.self fun b h => absurd (congrArg List.head? h) (by simp)) (by decide)
    (.other (by decide) (.inl (by decide))) (.other (op := .ne))⟩

theorem x09 : (get b!"[\"a\"]" b!"#(!\"a\")").toOption.map Value.json = some [] := by
  refine obtained (queried (n := 0) (vs := [b!"\"a\""]) (q := b!"!\"a\"") (test := fun _ => false) (by decide +kernel)
    (.plain (by decide) (.str (b := b!"a") (.plain (by decide) (by decide) .nil) .nil))
    (QueryCut.query (q := b!"!\"a\"") (h := []) (.inl rfl) (trimOf_id ⟨by decide, by decide⟩)
      (.op (by decide) (.notOne (by decide))) (trimOf_id ⟨by decide, by decide⟩) (trimOf_id ⟨by decide, by decide⟩)) ?_)
  intro v hv
  simp only [List.mem_singleton] at hv
  subst hv
  exact ⟨b!"\"a\"", ⟨val (by decide +kernel), rfl⟩, .plain (r := b!"a") (.quoted (b := b!"a") (by decide) (show Told b!"a" b!"a" by unfold Told; rw [if_neg (by decide)])) (by decide)
    (.string (by decide) (.string (b := b!"a") (.plain (by decide) (by decide) .nil) (show Told b!"a" b!"a" by unfold Told; rw [if_neg (by decide)])))
    (.unknown (by simp) (by decide) (by intro o; cases o <;> decide))⟩

theorem x10 : (get b!"1" b!"..@this").toOption.map Value.json = some [] := by
  refine obtained ⟨1, .lines (path := b!"@this") (vs := [b!"1"]) (.last (w := []) (by simp [Ws]) (val (by decide +kernel)))
    (CutUp.modifier (k := b!"this") (t := []) (.plain (by decide) (by decide) (.plain (by decide) (by decide) (.plain (by decide) (by decide)
      (.plain (by decide) (by decide) (.plain (by decide) (by decide) .nil))))) .nothing)
    (.beyond (by decide) ?_) .done⟩
  rintro n ⟨ds, h1, h2, h3, h4⟩ _
  exfalso
  rcases h4 with h4 | h4 | ⟨h4, _⟩
  · subst h4; exact absurd (h2 (c! '@') (by simp)) (by decide)
  · exact absurd (congrArg List.head? h4) (by simp)
  · exact absurd (congrArg List.head? h4) (by simp)

theorem x11 : (get b!"{}" b!"x|[y]").toOption.map Value.json = some b!"[]" := by
  refine obtained ⟨3, .look (pad _) (val (by decide +kernel)) (by decide)
    (CutUp.key (k := b!"x") (t := b!"|[y]") (.plain (by decide) (by decide) .nil) (by decide) (.sep (by decide))) (by unfold Computes; decide)
    (.obj (.inl ⟨[], by simp [Ws], rfl, rfl⟩) .nil) (.more (by decide) ?_)⟩
  exact ObtainsBy.array (s := b!"y") (xs := [[]])
    (CutUp.multi (g := b!"[y]") (t := []) ⟨_, b!"y", _, by decide, by decide, balanced_plain (by decide), rfl⟩ (by decide) .nothing) rfl
    (.last (.closed (pieces_plain (by decide))) (.last (last_plain (by decide)) (by unfold SimpleName; decide)))
    (.cons (.nothing (by decide) (CutUp.key (k := b!"y") (t := []) (.plain (by decide) (by decide) .nil) (by decide) .nothing)
      (by unfold Computes; decide) .done) .nil) .done

theorem x12 : (get b!"[\"\\u0037\"]" b!"0" >>= Value.i64) = .ok 7 := by
  have ha : IsArray b!"[\"\\u0037\"]" [b!"\"\\u0037\""] := arr (vs := [b!"\"\\u0037\""]) (by decide +kernel)
  have ho : Obtains b!"[\"\\u0037\"]" b!"0" b!"\"\\u0037\"" := ⟨1, .look (pad _) (IsArray.isValue ha) (by decide)
    (CutUp.key (k := b!"0") (t := []) (.plain (by decide) (by decide) .nil) (by decide) .nothing) (by unfold Computes; decide)
    (.arr ha (.index ⟨b!"0", by decide, by decide, rfl, .inl rfl⟩ (by decide) rfl)) .done⟩
  obtain ⟨v, h1, h2, _, h3⟩ := C71_sound ho
  rw [h1]
  refine (C69_i64 (.get h1) (by rw [h3]; decide) 7).2 ?_
  rw [h2]
  exact .read (.string (b := b!"\\u0037") (.esc (.plain (by decide) (by decide) (.plain (by decide) (by decide) (.plain (by decide) (by decide)
      (.plain (by decide) (by decide) .nil)))))
    (show Told b!"\\u0037" b!"7" by
      unfold Told
      rw [if_pos (by decide)]
      exact .bmp (u := 0x37) (r := []) (t := []) (by unfold Quad; decide) (by unfold IsSurrogate; decide) (.ends .nil)))
    (.inl ⟨false, 7, ⟨[], b!"7", rfl, .inl rfl, by decide, by decide, by decide⟩, by decide, rfl⟩)

/-! Modifiers inside of paths, and what a sweep over the model has shown to be without a use. -/

theorem tidy_val {v : Bytes} (h : valid v = .ok true ∧ trimmed v = true ∧ kindOf v ≠ .object ∧ kindOf v ≠ .array) : Nice Tidy v :=
  nice_value (.scalar (val ⟨h.1, h.2.1⟩) h.2.2.1 h.2.2.2)

theorem sane_of {doc path : Bytes} (h : ∃ r, Obtains doc path r ∧ (r = [] ∨ JsonText r)) :
    (get doc path).toOption.map (fun w => decide (w.json = [] ∨ valid w.json = .ok true)) = some true := by
  obtain ⟨r, h1, h2⟩ := h
  obtain ⟨w, h3, rfl, _⟩ := C71_sound h1
  rw [h3]
  refine congrArg some (decide_eq_true (h2.imp id fun h => (C01_valid_iff_rfc8259 _).2 h))

theorem sane {v doc path : Bytes} (hv : Tidy v) (hd : Padded v doc) (hp : Bare path) :
    (get doc path).toOption.map (fun w => decide (w.json = [] ∨ valid w.json = .ok true)) = some true := by
  obtain ⟨r, h1, h2⟩ := C72_total_orderly hv hd (C72_bare hp)
  refine sane_of ⟨r, ⟨_, h1⟩, h2.imp id ?_⟩
  rintro ⟨x, ⟨w1, w2, g1, g2, rfl⟩, hx⟩
  exact ⟨w1, x, w2, rfl, g1, g2, tidy_value hx⟩

theorem y01 : (get b!"[[],1]" b!"@flatten").toOption.map (fun w => decide (w.json = [] ∨ valid w.json = .ok true)) = some true := by
  refine sane (stock_array stock_tidy (xs := [b!"[]", b!"1"]) ?_) (pad _) (by unfold Bare; decide +kernel)
  simp only [List.forall_mem_cons, List.not_mem_nil, false_implies, implies_true, and_true]
  exact ⟨⟨by decide, nice_array stock_tidy (xs := []) (by simp)⟩, by decide, tidy_val (by decide +kernel)⟩

theorem y02 : (get b!"[[],1]" b!"@pretty|@flatten").toOption.map (fun w => decide (w.json = [] ∨ valid w.json = .ok true)) = some true := by
  refine sane (stock_array stock_tidy (xs := [b!"[]", b!"1"]) ?_) (pad _) (by unfold Bare; decide +kernel)
  simp only [List.forall_mem_cons, List.not_mem_nil, false_implies, implies_true, and_true]
  exact ⟨⟨by decide, nice_array stock_tidy (xs := []) (by simp)⟩, by decide, tidy_val (by decide +kernel)⟩

theorem y03 : (parse b!"1e999" >>= fun v => queryMatches v b!"=" b!"0") = .ok false := by
  have hq : (10 : ℚ) ^ 999 = (decVal (b!"1" ++ ([] : Bytes).drop 1) : ℚ) * 10 ^ (expVal b!"e999" - ((([] : Bytes).drop 1).length : Int)) := by
    rw [show decVal (b!"1" ++ ([] : Bytes).drop 1) = 1 by decide, show expVal b!"e999" = 999 by decide]
    norm_num
  have he : ExpPart b!"e999" := .inr ⟨c! 'e', [], b!"999", rfl, by decide, by decide, by decide, by decide⟩
  have hb : binary64.bound ≤ 10 ^ 999 := by
    have : (2 : ℚ) ^ 1024 ≤ 10 ^ 999 := by
      exact_mod_cast (show 2 ^ 1024 ≤ 10 ^ 999 by decide +kernel)
    exact le_trans (sub_le_self _ (by positivity)) this
  have hz : FloatOf b!"0" (.fin false 0) := .inl ⟨[], false, b!"0", rfl, .inl rfl, .inl ⟨0, ⟨b!"0", [], [], rfl, by decide, .inl ⟨rfl, by decide⟩, .inl rfl, by
    rw [show decVal (b!"0" ++ ([] : Bytes).drop 1) = 0 by decide]; simp⟩, .inl ⟨sub_pos.2 (by
      exact_mod_cast (show 2 ^ 970 < 2 ^ 1024 by decide +kernel)), 0, rfl, ⟨by decide +kernel, 0, 0, rfl, by decide, by decide⟩, fun y _ => ⟨by simp [mag], fun _ _ =>
      ⟨0, 0, rfl, by decide, by decide, .inl rfl, rfl⟩⟩⟩⟩⟩
  obtain ⟨v, x, h1, h2, h3, _⟩ := C42_parse (t := b!"1e999") (neg := false) (q := 10 ^ 999) (w1 := []) (w2 := [])
    ⟨[], b!"1", [], b!"e999", rfl, rfl, .inr ⟨c! '1', [], rfl, by decide, by decide, by decide⟩, .inl rfl, he, hq⟩ (by simp [Ws]) (by simp [Ws])
  rw [List.nil_append, List.append_nil] at h1
  rw [h1, ok_bind]
  refine (C70_query (.parse h1) (.inr (by rw [h2]; decide)) _ _ _).2 ?_
  rw [h3]
  exact .plain (r := b!"0") (.self fun b h => absurd (congrArg List.head? h) (by simp)) (by decide)
    (.number (y := .inf false) (by decide) (.inl ⟨[], false, b!"1e999", rfl, .inl rfl, .inl ⟨_, ⟨b!"1", [], b!"e999", rfl, by decide, .inl ⟨rfl, by decide⟩, he, hq⟩, .inr ⟨hb, rfl⟩⟩⟩))
    (Answer.number (op := .eq) (lt := false) (eq := false) (gt := true) hz (by simp [F64.Below]) (by simp [F64.Equal]) (by simp [F64.Below]))

theorem y04 : (get b!"{\"a\":{\"\":1}}" b!"a.").toOption.map Value.json = some b!"1" := by
  have ho : IsObject b!"{\"a\":{\"\":1}}" [(b!"\"a\"", b!"{\"\":1}")] := obj (kvs := [(b!"a", b!"{\"\":1}")]) (by decide +kernel)
  have hi : IsObject b!"{\"\":1}" [(b!"\"\"", b!"1")] := obj (kvs := [(b!"", b!"1")]) (by decide +kernel)
  refine obtained ⟨1, .look (o := some ⟨b!"1", 0, []⟩) (pad _) (IsObject.isValue ho) (by decide)
    (CutUp.key (k := b!"a") (t := b!".") (.plain (by decide) (by decide) .nil) (by decide) (.sep (by decide))) (by unfold Computes; decide)
    (.obj ho (.into ⟨b!"a", ?_, rfl⟩ rfl (.inl (by decide)) (CutUp.key (k := []) (t := []) .nil (by decide) .nothing)
      (by unfold Computes; decide) (.obj hi (.scalar ⟨[], ?_, rfl⟩ (by decide) (by decide))))) .done⟩
  · exact ⟨b!"a", .plain (by decide) (by decide) (by decide) .nil, rfl, .plain (by decide) (by decide) (by decide) .nil⟩
  · exact ⟨[], .nil, rfl, .nil⟩

theorem y05 : (get b!"[1,2]" b!"@reverse").toOption.map Value.json = some b!"[2,1]" := by
  refine obtained ⟨1, .call (n := b!"reverse") (a := []) (out := b!"[2,1]") (x := b!"[2,1]")
    (CutUp.modifier (k := b!"reverse") (t := []) (e := false) (w := false) ?_ .nothing) .bare
    (.reverseArray (arr (vs := [b!"1", b!"2"]) (by decide +kernel)) (pad _)) (.cont (w := []) (by simp [Ws]) (by decide)) .done⟩
  repeat first | exact .nil | refine .plain (by decide) (by decide) ?_

theorem y06 : unescape (escape [3]) = .ok [3] := C21_unescape_escape _

theorem y07 : prettyOptions b!"[1]" ⟨0, b!" ", b!"\t", false⟩ = .ok b!" [\n \t1\n ]\n" := by
  have := C43_layout (pad _) (items (es := [(b!"1", _)]) (by simp) (by
    simp only [List.forall_mem_cons]
    exact ⟨num (t := b!"1") (by decide +kernel), by simp⟩)) (by decide +kernel) ⟨0, b!" ", b!"\t", false⟩
  exact this.trans (by decide +kernel)

/-! Texts that are not JSON. -/

theorem yielded {doc path r : Bytes} (h : Yields doc path r) : (get doc path).toOption.map Value.json = some r := by
  obtain ⟨v, h1, h2, _⟩ := C74_sound h
  exact json_of ⟨v, h1, h2⟩

theorem body_plain {b : Bytes} (h : ∀ c ∈ b, c ≠ c! '"' ∧ c ≠ c! '\\') : QuotedBody b := by
  induction b with
  | nil => exact .nil
  | cons c r ih => exact .plain (h c (by simp)).1 (h c (by simp)).2 (ih fun x hx => h x (List.mem_cons_of_mem _ hx))

theorem cut_a : CutUp b!"a" ⟨b!"a", false, false, 0, 0, []⟩ :=
  CutUp.key (k := b!"a") (t := []) (.plain (by decide) (by decide) .nil) (by decide) .nothing

theorem keyAt_a {w t : Bytes} (hw : ∀ c ∈ w, c ≤ 0x20 ∨ c = c! ':') (ht : ∀ c ∈ t.head?, 0x20 < c ∧ c ≠ c! ':') :
    KeyAt (b!"\"a\"" ++ (w ++ t)) b!"\"a\"" t := KeyAt.key (b := b!"a") (body_plain (by decide)) hw ht

theorem hit_a {G : Bytes → Bytes → Bytes → Prop} : (asksIn G).hit b!"a" false b!"\"a\"" :=
  ⟨b!"a", b!"a", rfl, by unfold Told; rw [if_neg (by decide)], rfl⟩

theorem found_a {w t v r s : Bytes} (hw : ∀ c ∈ w, c ≤ 0x20 ∨ c = c! ':') (ht : ∀ c ∈ t.head?, 0x20 < c ∧ c ≠ c! ':') (hv : ValueAt t v r)
    (hs : ∀ {o}, Hunt (asksIn (YieldsAt 0)) ⟨b!"a", false, false, 0, 0, []⟩ (b!"\"a\"" ++ (w ++ t)) o →
      Hunt (asksIn (YieldsAt 0)) ⟨b!"a", false, false, 0, 0, []⟩ s o) :
    (get (c! '{' :: s) b!"a").toOption.map Value.json = some v :=
  yielded ⟨1, .look (o := some ⟨v, 0, []⟩) (by decide) cut_a (by unfold Computes; decide)
    (.inside (w := []) (by simp [Blank]) (.object (hs (.take (keyAt_a hw ht) hit_a (fun _ h => absurd h.1 (by decide)) hv)))) .done⟩

theorem num_at {d : UInt8} {p r : Bytes} (h : (IsDigit d ∨ d = c! '-') ∧ (∀ c ∈ p, IsDigit c ∨ c ∈ b!".eE+-") ∧ ∀ c ∈ r.head?, ¬ IsDigit c ∧ c ∉ b!".eE+-") :
    ValueAt (d :: (p ++ r)) (d :: p) r := .number h.1 h.2.1 h.2.2

theorem z01 : (get b!"{1 \"a\":2}" b!"a").toOption.map Value.json = some b!"2" :=
  found_a (w := b!":") (t := b!"2}") (s := b!"1 \"a\":2}") (by decide) (by decide) (num_at (p := []) (r := b!"}") (by unfold IsDigit; decide))
    fun h => .skip (by decide) (.skip (by decide) h)

theorem z02 : (get b!"{\"a\"1}" b!"a").toOption.map Value.json = some b!"1" :=
  found_a (w := []) (t := b!"1}") (s := b!"\"a\"1}") (by decide) (by decide) (num_at (p := []) (r := b!"}") (by unfold IsDigit; decide)) id

theorem z03 : (get b!"{\"a\":[1,\"a\":{\"b\":6}]}" b!"a.b").toOption.map Value.json = some b!"6" := by
  have one : ∀ {r : Bytes} {d : UInt8}, IsDigit d → (∀ c ∈ r.head?, ¬ IsDigit c ∧ c ∉ b!".eE+-") → ValueAt (d :: r) [d] r :=
    fun h1 h2 => num_at (p := []) ⟨.inl h1, by simp, h2⟩
  have hc : CutUp b!"a.b" ⟨b!"a", false, false, c! '.', 0, b!"b"⟩ :=
    CutUp.key (k := b!"a") (t := b!".b") (.plain (by decide) (by decide) .nil) (by decide) (.sep (by decide))
  have hb : CutUp b!"b" ⟨b!"b", false, false, 0, 0, []⟩ := CutUp.key (k := b!"b") (t := []) (.plain (by decide) (by decide) .nil) (by decide) .nothing
  have hit : (asksIn (YieldsAt 0)).hit b!"b" false b!"\"b\"" := ⟨b!"b", b!"b", rfl, by unfold Told; rw [if_neg (by decide)], rfl⟩
  have go : ∀ {t : Bytes}, (∃ c ∈ t.head?, c ∈ b!"{[") → GoesInto ⟨b!"a", false, false, c! '.', 0, b!"b"⟩ ⟨b!"b", false, false, 0, 0, []⟩ t :=
    fun h => ⟨rfl, hb, by unfold Computes; decide, h⟩
  have inner : Probe (asksIn (YieldsAt 0)) ⟨b!"b", false, false, 0, 0, []⟩ b!"{\"b\":6}]}" (some ⟨b!"6", 0, []⟩) :=
    .object (.take (KeyAt.key (b := b!"b") (w := b!":") (t := b!"6}]}") (body_plain (by decide)) (by decide) (by decide)) hit
      (fun _ h => absurd h.1 (by decide)) (one (by unfold IsDigit; decide) (by unfold IsDigit; decide)))
  have hl : Listing b!"1,\"a\":{\"b\":6}]}" [b!"1", b!"\"a\"", b!"{\"b\":6}"] :=
    .value (one (by unfold IsDigit; decide) (by unfold IsDigit; decide)) (.skip (by decide) (.value (.string (b := b!"a") (body_plain (by decide)))
      (.skip (by decide) (.value (.group (g := b!"{\"b\":6}") (r := b!"]}") ⟨_, b!"\"b\":6", _, by decide, by decide,
        .str (b := b!"b") (body_plain (by decide)) (balanced_plain (by decide)), rfl⟩ (by decide)) (.close (by decide))))))
  have outer : Probe (asksIn (YieldsAt 0)) ⟨b!"b", false, false, 0, 0, []⟩ b!"[1,\"a\":{\"b\":6}]}" none := by
    refine .array hl (.beyond (by decide) ?_)
    rintro n ⟨ds, h1, h2, h3, h4⟩ _
    exfalso
    rcases h4 with h4 | h4 | ⟨h4, _⟩
    · subst h4; exact absurd (h2 (c! 'b') (by simp)) (by unfold IsDigit; decide)
    · exact absurd (congrArg List.head? h4) (by simp)
    · exact absurd (congrArg List.head? h4) (by simp)
  exact yielded ⟨1, .look (o := some ⟨b!"6", 0, []⟩) (by decide) hc (by unfold Computes; decide)
    (.inside (w := []) (by simp [Blank]) (.object (.again (keyAt_a (w := b!":") (t := b!"[1,\"a\":{\"b\":6}]}") (by decide) (by decide)) hit_a (go (by simp)) outer
      (.skip (by decide) (.skip (by decide) (.skip (by decide) (.into (keyAt_a (w := b!":") (t := b!"{\"b\":6}]}") (by decide) (by decide)) hit_a (go (by simp)) inner))))))) .done⟩

theorem z04 : (parse b!"{\"a\":1,\"b\"" >>= fun v => v.pairs >>= fun l => .ok (l.map fun p => (p.1.json, p.2.json))) = .ok [(b!"\"a\"", b!"1")] := by
  obtain ⟨v, h1, h2⟩ := (C73_parse _ _).2 (Parsed.cont (w := []) (s := b!"{\"a\":1,\"b\"") (by simp [Blank]) (by simp))
  rw [List.nil_append] at h1
  have hk : v.kind = .object := by rw [C62_kind (.parse h1) (exists_json.2 (by rw [h2]; decide)), h2]; decide
  obtain ⟨r, vs, ps, h3, h4, h5, h6, _⟩ := C73_pairs (.parse h1) hk
  rw [h2] at h3
  cases h3
  have hl : Listing b!"\"a\":1,\"b\"" [b!"\"a\"", b!"1", b!"\"b\""] :=
    .value (.string (b := b!"a") (body_plain (by decide))) (.skip (by decide) (.value (num_at (p := []) (r := b!",\"b\"") (by unfold IsDigit; decide))
      (.skip (by decide) (.value (.string (b := b!"b") (r := []) (body_plain (by decide))) .nil))))
  rw [C73_one.2.2 _ _ h4 hl] at h6
  rw [h1, ok_bind, h5, ok_bind, h6]
  rfl

theorem z05 : (parse b!" 1.2.3+," ).toOption.map Value.json = some b!"1.2.3+" :=
  json_of ((C73_parse _ _).2 (Parsed.value (w := b!" ") (s := b!"1.2.3+,") (by unfold Blank; decide) (by decide)
    (num_at (p := b!".2.3+") (r := b!",") (by unfold IsDigit; decide))))

theorem z06 : (get b!"{\"a\":nulp}" b!"a").toOption.map Value.json = some b!"nulp" :=
  found_a (w := b!":") (t := b!"nulp}") (s := b!"\"a\":nulp}") (by decide) (by decide) (.four (w := b!"ulp") (r := b!"}") (by decide) rfl) id

theorem z07 : (get b!"{\"a\":[)}" b!"a").toOption.map Value.json = some b!"[)" :=
  found_a (w := b!":") (t := b!"[)}") (s := b!"\"a\":[)}") (by decide) (by decide) (.group (g := b!"[)") (r := b!"}")
    ⟨_, [], _, by decide, by decide, .nil, rfl⟩ (by decide)) id

theorem z08 : modApply get b!"ugly" b!"[ 1 ,\"a b" [] = .ok b!"[1,\"a b" := by
  refine (C73_modifier (by decide) _ _ _).2 (.ugly (.other (by decide) (by decide) (.blank (by decide) (.other (by decide) (by decide) (.blank (by decide)
    (.other (by decide) (by decide) (.openString ?_)))))))
  rintro g r e
  constructor
  · rintro ⟨o, b, c, h1, _, _, rfl⟩
    rw [List.cons_append] at e
    rw [← (List.cons.inj e).1] at h1
    exact absurd h1 (by decide)
  · rintro ⟨b, _, rfl⟩
    have := congrArg (List.count (c! '"')) e
    rw [show List.count (c! '"') b!"\"a b" = 1 by decide] at this
    simp at this

theorem z09 : (get b!"1}2]3" b!"..#").toOption.map Value.json = some b!"1" :=
  yielded ⟨1, .lines (vs := [b!"1"]) (o := some ⟨numeral 1, 0, []⟩) (.value (num_at (p := []) (r := b!"}2]3") (by unfold IsDigit; decide)) (.close (by decide)))
    (CutUp.count (t := []) .nothing) (.count (by decide)) .done⟩

theorem z10 : modApply get b!"reverse" b!"{1 2,[3]\"\":4" [] = .ok b!"{[3]\"\",1 2}" := by
  have p1 := Spans.pair (w := []) (k := b!"1") (m := b!" ") (v := b!"2") (r := b!",[3]\"\":4") (by simp [Seps])
    (num_at (p := []) (by unfold IsDigit; decide)) (by unfold Seps; decide) (num_at (p := []) (by unfold IsDigit; decide))
    (Spans.pair (w := b!",") (k := b!"[3]") (m := []) (v := b!"\"\"") (r := b!":4") (by unfold Seps; decide)
      (.group (g := b!"[3]") ⟨_, b!"3", _, by decide, by decide, balanced_plain (by decide), rfl⟩ (by decide)) (by simp [Seps]) (.string (b := []) .nil)
      (.rest (vs := [b!"4"]) (.skip (by decide) (.value (num_at (p := []) (r := []) (by unfold IsDigit; decide)) .nil)) (by decide)))
  exact (C73_modifier (by decide) _ _ _).2 (.reverseObject (Parsed.cont (w := []) (by simp [Blank]) (by simp)) p1)

theorem z11 : modApply get b!"flatten" b!"[[1 [2}] 3" b!"{\"deep\":true" = .ok b!"[1,2,3]" := by
  have n1 : ∀ {r : Bytes} {d : UInt8}, IsDigit d → (∀ c ∈ r.head?, ¬ IsDigit c ∧ c ∉ b!".eE+-") → ValueAt (d :: r) [d] r :=
    fun h1 h2 => num_at (p := []) ⟨.inl h1, by simp, h2⟩
  refine (C73_modifier (by decide) _ _ _).2 (.flattenDeep (r := b!"[1 [2}] 3") (vs := [b!"[1 [2}]", b!"3"]) (ls := [b!"1", b!"2", b!"3"])
    (Parsed.cont (w := []) (by simp [Blank]) (by simp)) ?_ ?_ ?_)
  · exact .value (.group (g := b!"[1 [2}]") (r := b!" 3") ⟨_, b!"1 [2}", _, by decide, by decide, .plain (by decide) (.plain (by decide)
      (.group (o := c! '[') (c := c! '}') (b := b!"2") (r := []) (by decide) (by decide) (balanced_plain (by decide)) .nil)), rfl⟩ (by decide))
      (.skip (by decide) (.value (n1 (r := []) (by unfold IsDigit; decide) (by simp)) .nil))
  · refine ⟨some ⟨b!"true", 0, []⟩, .inside (w := []) (by simp [Blank]) (.object (.take (KeyAt.key (b := b!"deep") (w := b!":") (t := b!"true")
      (body_plain (by decide)) (by decide) (by decide)) ⟨b!"deep", b!"deep", rfl, by unfold Told; rw [if_neg (by decide)], rfl⟩
      (fun _ h => absurd h.1 (by decide)) (.four (w := b!"rue") (r := []) (by decide) rfl))), ?_⟩
    exact .yes (by decide)
  · refine .splice (r := b!"1 [2}]") (ws := [b!"1", b!"[2}"]) (ks := [b!"1", b!"2"]) ?_ (.keep (by decide) (.splice (r := b!"2}") (ws := [b!"2"]) (ks := [b!"2"])
      (.value (n1 (by unfold IsDigit; decide) (by unfold IsDigit; decide)) (.close (by decide))) (.keep (by decide) .nil) .nil)) (.keep (by decide) .nil)
    exact .value (n1 (by unfold IsDigit; decide) (by unfold IsDigit; decide)) (.skip (by decide) (.value (.group (g := b!"[2}") (r := b!"]") ⟨_, b!"2", _, by decide, by decide,
      balanced_plain (by decide), rfl⟩ (by decide)) (.close (by decide))))

/-! Words that begin as `true` does. -/

theorem word {w : Bytes} (h : w.length = 3) : ToldBy (parse (c! 't' :: w)) (c! 't' :: w) := by
  refine C75_parse (fair_head (by intro c hc; cases hc; decide)) ?_
  have := ValueAt.four (d := c! 't') (w := w) (r := []) (by decide) h
  rw [List.append_nil] at this
  exact Parsed.value (w := []) (by simp [Blank]) (by intro c hc; cases hc; decide) this

theorem a01 : (parse b!"trux" >>= Value.str) = .ok b!"true" := ((word rfl).str _).2 (.true rfl)

theorem a02 : (do let a ← parse b!"true"; let b ← parse b!"trux"; a.cmp b) = .ok .lt := by
  have h1 := word (w := b!"rue") rfl
  have h2 := word (w := b!"rux") rfl
  obtain ⟨a, e1, _⟩ := h1.value
  obtain ⟨b, e2, _⟩ := h2.value
  rw [e1] at h1 ⊢
  rw [e2] at h2 ⊢
  exact (C76_cmp h1 h2 _).2 (.texts rfl (by decide) (by decide) (.inl ⟨rfl, by decide⟩))

theorem a03 : (parse b!"t\"]x" >>= Value.bool) = .ok true :=
  ((word rfl).bool _).2 (.num (n := 1) (by decide) (by decide) (.true rfl))

end Gjson.Uses
