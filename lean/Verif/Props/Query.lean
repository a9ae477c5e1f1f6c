import Verif.Lemmas.QueryPath
import Verif.Lemmas.Mod
import Verif.Props.Search
import Verif.Props.Total
import Verif.Props.Valid
/-
C13, C14, C15, C18 and C34: mapping a path over a sequence, queries, JSON Lines and
the modifiers `@this` and `@valid`.

`Sequence doc pre vs` says that `doc` is a valid array (then `pre` is empty) or JSON
Lines (then `pre` is `..`) with the value texts `vs`.
-/
namespace Gjson
open Spec

theorem Sequence.mem_value {doc pre : Bytes} {vs : List Bytes} (h : Sequence doc pre vs) : ∀ v ∈ vs, IsValue v := by
  cases h with
  | array ha _ => exact fun v hv => (IsArray.mem_value ha v hv).1
  | lines hj =>
    induction hj with
    | nil => simp
    | last _ hv => simpa using hv
    | cons _ hv _ _ ih => simp only [List.mem_cons]; rintro v (rfl | h); exact hv; exact ih v h

theorem elemsText_plain {vs : List Bytes} : elemsText (vs.map fun v => ⟨[], v, []⟩) = commaSep vs := by
  induction vs with
  | nil => rfl
  | cons v vs ih =>
    cases vs with
    | nil => simp [elemsText, Elem.text, commaSep]
    | cons u vs =>
      simp only [List.map_cons] at ih ⊢
      rw [elemsText, ih]
      simp [Elem.text, commaSep]

/-- The array text of value texts is an array of exactly these. -/
theorem arrayText_isArray {vs : List Bytes} (h : ∀ v ∈ vs, IsValue v) : IsArray (arrayText vs) vs := by
  cases vs with
  | nil => exact .inl ⟨[], by simp [Ws], rfl, rfl⟩
  | cons v vs =>
    refine .inr ⟨(v :: vs).map fun v => ⟨[], v, []⟩, by simp, ?_, ?_, ?_, ?_⟩
    · intro e he
      obtain ⟨x, _, rfl⟩ := List.mem_map.1 he
      exact ⟨by simp [Ws], by simp [Ws]⟩
    · intro e he
      obtain ⟨x, hx, rfl⟩ := List.mem_map.1 he
      exact h x hx
    · rw [elemsText_plain]; rfl
    · simp [Function.comp_def]

/-! ### C13 -/

/-- The results of a path on every text, in order. -/
def ResultsOf (path : Bytes) (vs : List Bytes) (ws : List Value) : Prop := Aligned (fun e w => get e path = .ok w) vs ws

/-- The texts of the results that exist. -/
def found (ws : List Value) : List Bytes := (ws.filter fun w => w.exists).map fun w => w.json

theorem results_mem {path : Bytes} {vs : List Bytes} {ws : List Value} (h : ResultsOf path vs ws) {x : Value} (hx : x ∈ ws) :
    ∃ e ∈ vs, get e path = .ok x := by
  unfold ResultsOf at h
  induction h with
  | nil => simp at hx
  | @cons e w vs ws h _ ih =>
    rcases List.mem_cons.1 hx with rfl | hx
    · exact ⟨e, by simp, h⟩
    · obtain ⟨e', h1, h2⟩ := ih hx
      exact ⟨e', by simp [h1], h2⟩

/-- C13: `#.path` gives the array of the results of the path on the elements, in
order, leaving out those that do not exist. The path may be any dot-separated keys
(also with wildcards or escapes) and indexes. The result is
a JSON array and has exactly these elements. -/
theorem C13_map {doc pre : Bytes} {vs : List Bytes} (h : Sequence doc pre vs) {ks : List Bytes} (hk : ∀ k ∈ ks, Selector k)
    (hne : ks ≠ []) :
    ∃ ws, ResultsOf (dotPath ks) vs ws ∧ ∃ w, get doc (pre ++ (b!"#." ++ dotPath ks)) = .ok w ∧ w.exists = true ∧
      w.kind = .array ∧ w.json = arrayText (found ws) ∧ IsArray w.json (found ws) := by
  have ho : OrdComps ks := fun k h => Selector.ord (hk k h)
  obtain ⟨ws, hw⟩ := results_exist (get_ord ho hne) vs
  have := sequence_map h ho hne (sep := 0) (rest := []) (t := []) ⟨rfl, rfl⟩ (by decide) hw
  rw [List.append_nil] at this
  refine ⟨ws, hw, _, this, ?_, ?_, mkOwned_json _ _ _, ?_⟩
  · rw [mkOwned_exists]; rfl
  · rw [mkOwned_kind]; decide
  · rw [mkOwned_json]
    refine arrayText_isArray fun v hx => ?_
    obtain ⟨x, h1, rfl⟩ := List.mem_map.1 hx
    have h2 := List.mem_filter.1 h1
    obtain ⟨e, h3, h4⟩ := results_mem hw h2.1
    obtain ⟨w, h5, h6⟩ := C10_inside (Sequence.mem_value h e h3) (padded_self e) hk hne
    rw [h4] at h5
    cases h5
    exact (h6 (by simpa using h2.2)).2.1

/-- C13, continued by a pipe: the rest of the path applies to that array. -/
theorem C13_map_pipe {doc pre : Bytes} {vs : List Bytes} (h : Sequence doc pre vs) {ks : List Bytes} (hk : ∀ k ∈ ks, Selector k)
    (hne : ks ≠ []) (b : Bytes) :
    get doc (pre ++ (b!"#." ++ (dotPath ks ++ c! '|' :: b))) =
      (get doc (pre ++ (b!"#." ++ dotPath ks)) >>= fun v => v.get b) := by
  have ho : OrdComps ks := fun k h => Selector.ord (hk k h)
  obtain ⟨ws, hw⟩ := results_exist (get_ord ho hne) vs
  have h1 := sequence_map h ho hne (sep := 0) (rest := []) (t := []) ⟨rfl, rfl⟩ (by decide) hw
  rw [List.append_nil] at h1
  rw [h1, sequence_map h ho hne (sep := c! '|') (rest := b) (t := c! '|' :: b) ⟨.inr rfl, rfl, rfl⟩ (by decide) hw]
  rfl

/-- Objects with and without the member. -/
def sampleRows : Bytes := b!"[{\"n\":\"x\",\"k\":1}, {\"k\":22},{\"n\":\"y\",\"k\":3} ]"

def sampleRowTexts : List Bytes := [b!"{\"n\":\"x\",\"k\":1}", b!"{\"k\":22}", b!"{\"n\":\"y\",\"k\":3}"]

theorem digit_value {c : UInt8} (h : IsDigit c ∧ c ≠ 0x30) : IsValue [c] :=
  .num ⟨[], [c], [], [], rfl, .inl rfl, .inr ⟨_, [], rfl, h.1, h.2, by simp⟩, .inl rfl, .inl rfl⟩

theorem sampleRows_isArray : IsArray sampleRows sampleRowTexts := by
  have hx : ∀ c : UInt8, c ≥ 0x20 → c ≠ c! '"' → c ≠ c! '\\' → StrLit [c! '"', c, c! '"'] :=
    fun c h1 h2 h3 => ⟨[c], .plain h1 h2 h3 .nil, rfl⟩
  refine .inr ⟨[⟨[], b!"{\"n\":\"x\",\"k\":1}", []⟩, ⟨b!" ", b!"{\"k\":22}", []⟩, ⟨[], b!"{\"n\":\"y\",\"k\":3}", b!" "⟩],
    by simp, ?_, ?_, rfl, rfl⟩
  · intro m hm; simp at hm
    rcases hm with rfl | rfl | rfl <;> exact ⟨by decide, by decide⟩
  · intro m hm; simp at hm
    rcases hm with rfl | rfl | rfl
    · exact IsObject.isValue (kvs := [(b!"\"n\"", b!"\"x\""), (b!"\"k\"", b!"1")]) (.inr ⟨[⟨[], b!"\"n\"", [], [], b!"\"x\"", []⟩,
        ⟨[], b!"\"k\"", [], [], b!"1", []⟩], by simp, by
          intro m hm; simp at hm
          rcases hm with rfl | rfl <;> exact ⟨by decide, hx _ (by decide) (by decide) (by decide), by decide, by decide, by decide⟩,
        by
          intro m hm; simp at hm
          rcases hm with rfl | rfl
          · exact .str (hx _ (by decide) (by decide) (by decide))
          · exact digit_value (by decide), rfl, rfl⟩)
    · exact IsObject.isValue (kvs := [(b!"\"k\"", b!"22")]) (.inr ⟨[⟨[], b!"\"k\"", [], [], b!"22", []⟩], by simp, by
          intro m hm; simp at hm; subst hm
          exact ⟨by decide, hx _ (by decide) (by decide) (by decide), by decide, by decide, by decide⟩,
        by
          intro m hm; simp at hm; subst hm
          exact .num ⟨[], b!"22", [], [], rfl, .inl rfl, .inr ⟨_, b!"2", rfl, by decide, by decide, by decide⟩, .inl rfl, .inl rfl⟩,
        rfl, rfl⟩)
    · exact IsObject.isValue (kvs := [(b!"\"n\"", b!"\"y\""), (b!"\"k\"", b!"3")]) (.inr ⟨[⟨[], b!"\"n\"", [], [], b!"\"y\"", []⟩,
        ⟨[], b!"\"k\"", [], [], b!"3", []⟩], by simp, by
          intro m hm; simp at hm
          rcases hm with rfl | rfl <;> exact ⟨by decide, hx _ (by decide) (by decide) (by decide), by decide, by decide, by decide⟩,
        by
          intro m hm; simp at hm
          rcases hm with rfl | rfl
          · exact .str (hx _ (by decide) (by decide) (by decide))
          · exact digit_value (by decide), rfl, rfl⟩)

theorem sampleRows_seq : Sequence sampleRows [] sampleRowTexts := .array sampleRows_isArray (padded_self _)

/-- The hypotheses of C13 can be met; one element has no member `n`. -/
example : Sequence sampleRows [] sampleRowTexts ∧ Selector b!"n" ∧
    (get sampleRows b!"#.n" >>= fun v => .ok v.json) = .ok b!"[\"x\",\"y\"]" :=
  ⟨sampleRows_seq, PlainKey.selector (by decide) (by decide), by decide +kernel⟩

/-! ### C14 -/

/-- `QueryHolds lh op rh e b`: on the element `e`, the query `lh op rh` gives `b`. The
value compared is the element itself, or the result of the path `lh` in it. What
`queryMatches` means is C15. -/
def QueryHolds (lh : Bytes) (op : Option Op) (rh e : Bytes) (b : Bool) : Prop :=
  ∃ v, (if lh = [] then parse e else get e lh) = .ok v ∧ queryMatches v (opName op) rh = .ok b

/-- C14: a plain query is decided on every element. -/
theorem C14_decided {q lh rh : Bytes} {op : Option Op} (hq : QueryText q lh op rh) {e : Bytes} (he : IsValue e) :
    ∃ b, QueryHolds lh op rh e b ∧ ∀ b', QueryHolds lh op rh e b' → b' = b := by
  have hl : QueryLeft lh := by cases hq <;> assumption
  have hn : pk e := jsonText_pk ⟨[], e, [], by simp, by simp [Ws], by simp [Ws], he⟩
  obtain ⟨b, v, h1, h2⟩ := elemTest_total (rh := rh) (opName op) hl hn
  refine ⟨b, ⟨v, h1, h2⟩, ?_⟩
  rintro b' ⟨v', h3, h4⟩
  rw [h1] at h3; cases h3
  rw [h2] at h4; cases h4; rfl

/-- C14, in function form. -/
theorem C14_test {doc pre q lh rh : Bytes} {vs : List Bytes} {op : Option Op} (h : Sequence doc pre vs)
    (hq : QueryText q lh op rh) : ∃ test : Bytes → Bool, ∀ e ∈ vs, QueryHolds lh op rh e (test e) := by
  classical
  refine ⟨fun e => decide (QueryHolds lh op rh e true), fun e he => ?_⟩
  obtain ⟨b, h1, h2⟩ := C14_decided hq (Sequence.mem_value h e he)
  cases b with
  | true => simpa only [decide_eq_true h1] using h1
  | false => simpa only [decide_eq_false (fun h => Bool.noConfusion (h2 true h))] using h1

/-- C14: `#(query)` is the first element for which the query holds; it does not
exist when there is none. -/
theorem C14_first {doc pre q lh rh : Bytes} {vs : List Bytes} {op : Option Op} (h : Sequence doc pre vs)
    (hq : QueryText q lh op rh) {test : Bytes → Bool} (ht : ∀ e ∈ vs, QueryHolds lh op rh e (test e)) :
    ∃ w, get doc (pre ++ (b!"#(" ++ (q ++ b!")"))) = .ok w ∧
      (∀ before e after, vs = before ++ e :: after → (∀ x ∈ before, test x = false) → test e = true →
        w.exists = true ∧ SameAsText w e) ∧
      ((∀ e ∈ vs, test e = false) → w.exists = false) := by
  obtain ⟨w, h1, h2⟩ := sequence_first h hq ht
  have hg := h2 (sep := 0) (rest := []) (t := []) ⟨rfl, rfl⟩
  refine ⟨w, by simpa [queryComp] using hg, ?_, ?_⟩
  · rintro before e after rfl hb he
    have : (before ++ e :: after).find? test = some e := by
      rw [List.find?_append, List.find?_eq_none.2 (by simpa using hb), List.find?_cons, he]; rfl
    rw [this] at h1
    refine ⟨?_, h1⟩
    have := isValue_ne_nil (Sequence.mem_value h e (by simp))
    rw [C20_exists_iff_json, h1.1]; exact this
  · intro hn
    rw [List.find?_eq_none.2 (by simpa using hn)] at h1
    simp only at h1
    rw [h1]; rfl

/-- C14: after `#(query)`, `.rest` and `|rest` apply to the element found. -/
theorem C14_first_rest {doc pre q lh rh : Bytes} {vs : List Bytes} {op : Option Op} (h : Sequence doc pre vs)
    (hq : QueryText q lh op rh) (rest : Bytes) {sep : UInt8} (hs : sep = c! '.' ∨ sep = c! '|') :
    get doc (pre ++ (b!"#(" ++ (q ++ c! ')' :: sep :: rest))) =
      (get doc (pre ++ (b!"#(" ++ (q ++ b!")"))) >>= fun v => v.get rest) := by
  obtain ⟨test, ht⟩ := C14_test h hq
  obtain ⟨w, _, h2⟩ := sequence_first h hq ht
  have h3 := h2 (sep := 0) (rest := []) (t := []) ⟨rfl, rfl⟩
  have h4 := h2 (sep := sep) (rest := rest) (t := sep :: rest) ⟨hs, rfl, rfl⟩
  rw [if_pos rfl] at h3
  rw [if_neg (by grind)] at h4
  have e3 : get doc (pre ++ (b!"#(" ++ (q ++ b!")"))) = .ok w := by simpa [queryComp] using h3
  have e4 : get doc (pre ++ (b!"#(" ++ (q ++ c! ')' :: sep :: rest))) = getIn get w rest := by simpa [queryComp] using h4
  rw [e3, e4]; rfl

/-- C14: `#(query)#` is the array of all elements for which the query holds, in
order, and nothing else. -/
theorem C14_all {doc pre q lh rh : Bytes} {vs : List Bytes} {op : Option Op} (h : Sequence doc pre vs)
    (hq : QueryText q lh op rh) {test : Bytes → Bool} (ht : ∀ e ∈ vs, QueryHolds lh op rh e (test e)) :
    ∃ w, get doc (pre ++ (b!"#(" ++ (q ++ b!")#"))) = .ok w ∧ w.exists = true ∧ w.kind = .array ∧
      w.json = arrayText (vs.filter test) ∧ IsArray w.json (vs.filter test) := by
  have hg := sequence_all h hq ht (sep := 0) (rest := []) (t := []) ⟨rfl, rfl⟩ (by decide)
  refine ⟨_, by simpa [queryComp] using hg, ?_, ?_, mkOwned_json _ _ _, ?_⟩
  · rw [mkOwned_exists]; rfl
  · rw [mkOwned_kind]; decide
  · rw [mkOwned_json]
    exact arrayText_isArray fun v hv => Sequence.mem_value h v (List.mem_filter.1 hv).1

/-- C14: after `#(query)#`, `|rest` applies to that array. -/
theorem C14_all_pipe {doc pre q lh rh : Bytes} {vs : List Bytes} {op : Option Op} (h : Sequence doc pre vs)
    (hq : QueryText q lh op rh) (rest : Bytes) :
    get doc (pre ++ (b!"#(" ++ (q ++ (b!")#|" ++ rest)))) =
      (get doc (pre ++ (b!"#(" ++ (q ++ b!")#"))) >>= fun v => v.get rest) := by
  obtain ⟨test, ht⟩ := C14_test h hq
  have h3 := sequence_all h hq ht (sep := 0) (rest := []) (t := []) ⟨rfl, rfl⟩ (by decide)
  have h4 := sequence_all h hq ht (sep := c! '|') (rest := rest) (t := c! '|' :: rest) ⟨.inr rfl, rfl, rfl⟩ (by decide)
  have e3 : get doc (pre ++ (b!"#(" ++ (q ++ b!")#"))) = .ok (mkOwned (arrayText (vs.filter test)) none INFO_ARRAY) := by
    simpa [queryComp] using h3
  have e4 : get doc (pre ++ (b!"#(" ++ (q ++ (b!")#|" ++ rest)))) =
      getIn get (mkOwned (arrayText (vs.filter test)) none INFO_ARRAY) rest := by
    simpa [queryComp] using h4
  rw [e3, e4]; rfl

/-- C14 with C13: `#(query)#.path` maps the path over the matching elements. -/
theorem C14_all_map {doc pre q lh rh : Bytes} {vs : List Bytes} {op : Option Op} (h : Sequence doc pre vs)
    (hq : QueryText q lh op rh) {test : Bytes → Bool} (ht : ∀ e ∈ vs, QueryHolds lh op rh e (test e))
    {ks : List Bytes} (hk : ∀ k ∈ ks, Selector k) (hne : ks ≠ []) :
    ∃ ws, ResultsOf (dotPath ks) (vs.filter test) ws ∧
      ∃ w, get doc (pre ++ (b!"#(" ++ (q ++ (b!")#." ++ dotPath ks)))) = .ok w ∧ w.kind = .array ∧
        w.json = arrayText (found ws) := by
  have ho : OrdComps ks := fun k h => Selector.ord (hk k h)
  obtain ⟨ws, hw⟩ := results_exist (get_ord ho hne) (vs.filter test)
  have := sequence_allMap h hq ht ho hne (sep := 0) (rest := []) (t := []) ⟨rfl, rfl⟩ (by decide) hw
  have e : get doc (pre ++ (b!"#(" ++ (q ++ (b!")#." ++ dotPath ks)))) = .ok (mkOwned (arrayText (existing ws)) none INFO_ARRAY) := by
    simpa [queryComp] using this
  refine ⟨ws, hw, _, e, ?_, mkOwned_json _ _ _⟩
  rw [mkOwned_kind]; decide

/-- The hypotheses of C14 can be met. -/
theorem sampleQuery : QueryText b!" k >= 3" b!"k" (some .ge) b!"3" :=
  .compare (w1 := b!" ") (lh := b!"k") (w2 := b!" ") (o := b!">=") (w3 := b!" ") (rh := b!"3") (w4 := [])
    (.plain (by decide) (by unfold Trimmed; decide)) (.name .ge) (.plain (by decide) (by unfold Trimmed; decide)) (by simp [Blank]) (by simp [Blank])
    (by simp [Blank]) (by simp [Blank]) (by simp)

example : Sequence sampleRows [] sampleRowTexts ∧ QueryText b!" k >= 3" b!"k" (some .ge) b!"3" ∧
    (get sampleRows b!"#( k >= 3)" >>= fun v => .ok v.json) = .ok b!"{\"k\":22}" ∧
    (get sampleRows b!"#( k >= 3)#" >>= fun v => .ok v.json) = .ok b!"[{\"k\":22},{\"n\":\"y\",\"k\":3}]" ∧
    (get sampleRows b!"#( k >= 3)#.n" >>= fun v => .ok v.json) = .ok b!"[\"y\"]" :=
  ⟨sampleRows_seq, sampleQuery, by decide +kernel, by decide +kernel, by decide +kernel⟩

/-- A query with a string literal that contains an operator and brackets, and one
without an operator. -/
example : QueryText b!"n == \")=\"" b!"n" (some .eq) b!"\")=\"" ∧ QueryText b!"n" b!"n" none [] :=
  ⟨.compare (w1 := []) (lh := b!"n") (w2 := b!" ") (o := b!"==") (w3 := b!" ") (rh := b!"\")=\"") (w4 := [])
      (.plain (by decide) (by unfold Trimmed; decide)) .eqEq
      (.str ⟨b!")=", .plain (by decide) (by decide) (by decide) (.plain (by decide) (by decide) (by decide) .nil), rfl⟩)
      (by simp [Blank]) (by simp [Blank]) (by simp [Blank]) (by simp [Blank]) (by simp),
    .present (w1 := []) (lh := b!"n") (w2 := []) (.plain (by decide) (by unfold Trimmed; decide)) (by decide) (by simp [Blank]) (by simp [Blank])⟩

/-- Rows whose members are arrays. -/
def sampleNets : Bytes := b!"[{\"a\":[1,2]},{\"a\":[3,\"x\"]},{\"b\":3}]"

/-- A query in the left side of a query. -/
theorem sampleNested : QueryText b!"a.#(>2)#|# >= 1" b!"a.#(>2)#|#" (some .ge) b!"1" := by
  have h1 : LeftText true b!">2" := .plain (by decide) (.inl rfl) (.plain (by decide) (.inl rfl) .nil)
  have h2 : LeftText false b!"(>2)#|#" := .paren (b := b!">2") (r := b!"#|#") h1 (leftText_plain (by decide))
  have h3 : LeftText false b!"a.#(>2)#|#" :=
    .plain (by decide) (.inr (by decide)) (.plain (by decide) (.inr (by decide)) (.plain (by decide) (.inr (by decide)) h2))
  exact .compare (w1 := []) (lh := b!"a.#(>2)#|#") (w2 := b!" ") (o := b!">=") (w3 := b!" ") (rh := b!"1") (w4 := [])
    ⟨h3, by unfold Trimmed; decide, fun h => absurd h.pretty (by decide)⟩ (.name .ge) (.plain (by decide) (by unfold Trimmed; decide)) (by simp [Blank]) (by simp [Blank])
    (by simp [Blank]) (by simp [Blank]) (by simp)

/-- A multipath and a modifier in the left side of a query. -/
theorem sampleMulti : QueryText b!"[a.1]|0|@this==\"]\"" b!"[a.1]|0|@this" (some .eq) b!"\"]\"" := by
  have h1 : LeftText false b!"[a.1]|0|@this" :=
    .bracket (b := b!"a.1") (r := b!"|0|@this") (by decide) (by decide) (leftText_plain (by decide)) (leftText_plain (by decide))
  exact .compare (w1 := []) (lh := b!"[a.1]|0|@this") (w2 := []) (o := b!"==") (w3 := []) (rh := b!"\"]\"") (w4 := [])
    ⟨h1, by unfold Trimmed; decide, fun h => absurd h.pretty (by decide)⟩ .eqEq (.str ⟨b!"]", .plain (by decide) (by decide) (by decide) .nil, rfl⟩)
    (by simp [Blank]) (by simp [Blank]) (by simp [Blank]) (by simp [Blank]) (by simp)

/-- What they find. -/
example : (get sampleNets b!"#(a.#(>2)#|# >= 1)" >>= fun v => .ok v.json) = .ok b!"{\"a\":[3,\"x\"]}" ∧
    (get b!"[{\"a\":[0,\"]\"]},{\"a\":[1]}]" b!"#([a.1]|0|@this==\"]\")#" >>= fun v => .ok v.json) = .ok b!"[{\"a\":[0,\"]\"]}]" := by
  decide +kernel

/-! ### C18 -/

theorem seq_index {doc pre : Bytes} {vs : List Bytes} (h : Sequence doc pre vs) {n : Nat} (hn : n < 2 ^ 63) :
    ∃ w, get doc (pre ++ numeral n) = .ok w ∧ (∀ v, vs[n]? = some v → SameAsText w v) ∧ (vs[n]? = none → w = Value.default) := by
  obtain ⟨vals, h1, _, _, h4⟩ := sequence_get h
  have hk := (plainKey_numeral n).1
  have ho := oneComp (PlainKey.compBody hk.1) (PlainKey.first hk)
  rw [h4 _ ho.lines (by rw [ho.next]; exact ⟨ho.modi, ho.multi⟩), ho.next]
  have := gArrVals_index get hk (indexText_numeral n) hn 0 [] vals
  unfold plainPath at this
  rw [this]
  refine ⟨_, ho.finish _, ?_, ?_⟩
  · intro v hv
    obtain ⟨e, he, hs⟩ := aligned_get h1 hv
    rw [List.getD_eq_getElem?_getD, he]; exact hs
  · intro hv
    rw [List.getD_eq_getElem?_getD, List.getElem?_eq_none]; · rfl
    rw [aligned_length h1]
    exact List.getElem?_eq_none_iff.1 hv

/-- C18: `..n` is the `n`-th value of JSON Lines, with its source text. -/
theorem C18_line {doc v : Bytes} {vs : List Bytes} (h : JsonLines doc vs) {n : Nat} (hn : n < 2 ^ 63) (hv : vs[n]? = some v) :
    ∃ w, get doc (b!".." ++ numeral n) = .ok w ∧ w.exists = true ∧ w.json = v ∧ w.kind = kindOf v ∧ SameAsText w v := by
  obtain ⟨w, h1, h2, _⟩ := seq_index (.lines h) hn
  have hs := h2 v hv
  refine ⟨w, h1, ?_, hs.1, hs.2.1, hs⟩
  rw [C20_exists_iff_json, hs.1]
  exact isValue_ne_nil (Sequence.mem_value (.lines h) v (List.mem_of_getElem? hv))

/-- C18: beyond the last line there is nothing, for every number. -/
theorem C18_beyond {doc : Bytes} {vs : List Bytes} (h : JsonLines doc vs) {n : Nat} (hv : vs.length ≤ n) :
    ∃ w, get doc (b!".." ++ numeral n) = .ok w ∧ w.exists = false := by
  by_cases hn : n < 2 ^ 63
  · obtain ⟨w, h1, _, h3⟩ := seq_index (.lines h) hn
    exact ⟨w, h1, by rw [h3 (List.getElem?_eq_none hv)]; rfl⟩
  · obtain ⟨vals, _, _, _, h4⟩ := sequence_get (.lines h)
    have hk := (plainKey_numeral n).1
    have ho := oneComp (PlainKey.compBody hk.1) (PlainKey.first hk)
    rw [h4 _ ho.lines (by rw [ho.next]; exact ⟨ho.modi, ho.multi⟩), ho.next]
    have := gArrVals_noindex get hk (fun ⟨m, h1, h2⟩ => hn (indexText_unique h1 (indexText_numeral n) ▸ h2)) 0 [] vals
    unfold plainPath at this
    rw [this]
    exact ⟨_, ho.finish _, rfl⟩

/-- C18: `..#` is the number of values. -/
theorem C18_count {doc : Bytes} {vs : List Bytes} (h : JsonLines doc vs) :
    ∃ w, get doc b!"..#" = .ok w ∧ w.exists = true ∧ w.kind = .number ∧ w.json = numeral vs.length ∧
      (vs.length < 2 ^ 64 → w.u64 = .ok vs.length) := by
  obtain ⟨vals, h1, _, _, h4⟩ := sequence_get (.lines h)
  have ho : OneComp b!"#" ⟨b!"#", false, false, 0, 0, []⟩ := ⟨pNext_hash, rfl, rfl, rfl, rfl⟩
  have h5 := h4 b!"#" ho.lines (by rw [ho.next]; exact ⟨ho.modi, ho.multi⟩)
  rw [ho.next] at h5
  have : gArrVals get ⟨b!"#", false, false, 0, 0, []⟩ vals =
      .ok (mkOwned (numeral vs.length) none INFO_NUMBER, ⟨b!"#", false, false, 0, 0, []⟩) := by
    rw [← aligned_length h1, ← natDec_eq]; rfl
  rw [this] at h5
  have hne : numeral vs.length ≠ [] := (numeral_spec _).1
  refine ⟨_, h5.trans (ho.finish _), ?_, ?_, ?_, ?_⟩
  · rw [mkOwned_exists]; simpa using hne
  · rw [mkOwned_kind]; decide
  · exact mkOwned_json _ _ _
  · intro h; exact C24_u64_number _ _ h (by rw [mkOwned_kind]; decide) (mkOwned_json _ _ _)

/-- C18, mapping over lines: `..#.path` is C13 with `pre = ..`. -/
theorem C18_map {doc : Bytes} {vs : List Bytes} (h : JsonLines doc vs) {ks : List Bytes} (hk : ∀ k ∈ ks, Selector k) (hne : ks ≠ []) :
    ∃ ws, ResultsOf (dotPath ks) vs ws ∧ ∃ w, get doc (b!"..#." ++ dotPath ks) = .ok w ∧ w.json = arrayText (found ws) ∧
      IsArray w.json (found ws) := by
  obtain ⟨ws, h1, w, h2, _, _, h3, h4⟩ := C13_map (.lines h) hk hne
  exact ⟨ws, h1, w, by simpa using h2, h3, h4⟩

/-- JSON Lines with three values. -/
def sampleLines : Bytes := b!"{\"k\":22}\n 7\t[] "

theorem sampleLines_ok : JsonLines sampleLines [b!"{\"k\":22}", b!"7", b!"[]"] := by
  have h1 := Sequence.mem_value sampleRows_seq b!"{\"k\":22}" (by simp [sampleRowTexts])
  exact .cons (w := []) (by simp [Ws]) h1 (by decide)
    (.cons (w := b!" ") (by simp [Ws, IsWs]) (digit_value (c := 0x37) (by decide)) (by decide)
      (.cons (w := []) (by simp [Ws]) (.arrEmpty (w := []) (by simp [Ws])) (by decide) (.nil (w := []) (by simp [Ws]))))

example : (get sampleLines b!"..#" >>= fun v => .ok v.json) = .ok b!"3" ∧
    (get sampleLines b!"..0" >>= fun v => .ok v.json) = .ok b!"{\"k\":22}" ∧
    (get sampleLines b!"..#.k" >>= fun v => .ok v.json) = .ok b!"[22]" := by decide +kernel

/-! ### C34 -/

/-- The names of the modifiers. -/
def modifierNames : List Bytes := [b!"this", b!"reverse", b!"ugly", b!"pretty", b!"valid", b!"flatten", b!"join"]

/-- C34: `@this` gives the document as `parse` reads it, whatever its argument. -/
theorem C34_this (text : Bytes) {a m : Bytes} (hm : ModCall b!"this" a m) :
    ∃ p v, parse text = .ok p ∧ get text m = .ok v ∧ SameValue v p := by
  refine ⟨pParse 0 text, jsonIntoOwned (pParse 0 text), parse_eq text, ?_, sameValue_owned (pParse_oneText _ _)⟩
  have := get_mod hm (t := []) (sep := 0) (rest := []) ⟨rfl, rfl⟩ text
  rw [List.append_nil] at this
  rw [this]; rfl

/-- C34: for a JSON text `@this` has its kind and, apart from whitespace around it,
its text. -/
theorem C34_this_json {t : Bytes} (h : IsValue t) : ∃ v, get t b!"@this" = .ok v ∧ SameAsText v t := by
  obtain ⟨p, v, h1, h2, h3⟩ := C34_this t (m := b!"@this") (.bare (by decide))
  obtain ⟨h4, h5, w, h6, h7⟩ := leaf_sameAsText h (some 0)
  rw [h1] at h6; cases h6
  exact ⟨v, h2, (h3.json.trans h7.json.symm).trans h4, (h3.kind.trans h7.kind.symm).trans h5, p, h1, h3⟩

/-- C34: `@valid` gives the document when `valid` accepts it. -/
theorem C34_valid {text : Bytes} (h : JsonText text) {a m : Bytes} (hm : ModCall b!"valid" a m) :
    ∃ p v, parse text = .ok p ∧ get text m = .ok v ∧ SameValue v p := by
  refine ⟨pParse 0 text, jsonIntoOwned (pParse 0 text), parse_eq text, ?_, sameValue_owned (pParse_oneText _ _)⟩
  have := get_mod hm (t := []) (sep := 0) (rest := []) ⟨rfl, rfl⟩ text
  rw [List.append_nil] at this
  rw [this]
  have e : modApply get b!"valid" text a = modValid text := rfl
  rw [e, modValid, (C01_valid_iff_rfc8259 text).2 h]
  rfl

/-- C34: `@valid` gives nothing when `valid` rejects the document. -/
theorem C34_invalid {text : Bytes} (h : ¬ JsonText text) {a m : Bytes} (hm : ModCall b!"valid" a m) :
    ∃ v, get text m = .ok v ∧ v.exists = false := by
  have := get_mod hm (t := []) (sep := 0) (rest := []) ⟨rfl, rfl⟩ text
  rw [List.append_nil] at this
  rw [this]
  have e : modApply get b!"valid" text a = modValid text := rfl
  rw [e, modValid, (C01_valid_false_iff text).2 h]
  exact ⟨_, rfl, rfl⟩

/-- C34: an unknown modifier gives nothing. -/
theorem C34_unknown (text : Bytes) {n a m : Bytes} (hn : n ∉ modifierNames) (hm : ModCall n a m) :
    ∃ v, get text m = .ok v ∧ v.exists = false := by
  have := get_mod hm (t := []) (sep := 0) (rest := []) ⟨rfl, rfl⟩ text
  rw [List.append_nil] at this
  rw [this]
  simp only [modifierNames, List.mem_cons, List.not_mem_nil, or_false, not_or] at hn
  have e : modApply get n text a = .ok [] := by
    unfold modApply
    rw [if_neg hn.1, if_neg hn.2.1, if_neg hn.2.2.1, if_neg hn.2.2.2.1, if_neg hn.2.2.2.2.1, if_neg hn.2.2.2.2.2.1,
      if_neg hn.2.2.2.2.2.2]
  rw [e]
  exact ⟨_, rfl, rfl⟩

/-- C34 and C12: after any modifier call, `.rest` and `|rest` apply to its result. -/
theorem C34_rest (text rest : Bytes) {n a m : Bytes} (hm : ModCall n a m) {sep : UInt8} (hs : sep = c! '.' ∨ sep = c! '|') :
    get text (m ++ sep :: rest) = (get text m >>= fun v => v.get rest) := by
  have h1 := get_mod hm (t := []) (sep := 0) (rest := []) ⟨rfl, rfl⟩ text
  rw [List.append_nil] at h1
  rw [h1, get_mod hm (t := sep :: rest) (sep := sep) (rest := rest) ⟨hs, rfl, rfl⟩ text]
  have h0 : sep ≠ 0 := by grind
  cases modApply get n text a with
  | error e => rfl
  | ok out => simp only [ok_bind, if_true, if_neg h0]; rfl

/-- Calls with all kinds of arguments. -/
example : ModCall b!"this" [] b!"@this" ∧ ModCall b!"nope" b!"x:y" b!"@nope:x:y" ∧
    ModCall b!"pretty" b!"[\".|\"]" b!"@pretty:[\".|\"]" ∧ b!"nope" ∉ modifierNames :=
  ⟨.bare (by decide), .plain (by decide) (by decide) (by decide) (by decide),
    .json (by decide) (.arr (es := [⟨[], b!"\".|\"", []⟩]) (by simp) (by simp [Elem.Wf, Ws]) (by
      intro e he; simp at he; subst he
      exact .str ⟨b!".|", .plain (by decide) (by decide) (by decide) (.plain (by decide) (by decide) (by decide) .nil), rfl⟩))
      (by decide), by decide⟩

end Gjson
