import Verif.Lemmas.Blank
import Verif.Lemmas.PipeAny
import Verif.Props.Search
import Verif.Props.Query
/-
C44: what stands after a dot is searched in the value the components before it lead
to. `Spec.Leads` (`Verif/SpecSearch.lean`) follows the components one after the
other.

The rest of the path may be any path: modifiers, multipaths, `#`, queries, further
components, separated by dots or pipes. Also C11, C12, C13, C14 and C40 for such
paths. `Spec.Part` (`Verif/SpecMulti.lean`) lists the kinds of components.
-/
namespace Gjson
open Spec

theorem leads_value {Hit : Bytes → Bytes → Prop} {v t : Bytes} {ks : List Bytes} (h : Leads Hit v ks t) (hv : IsValue v) : IsValue t := by
  induction h with
  | here => exact hv
  | key ho _ _ _ ih => exact ih (IsObject.mem_value ho _ (List.mem_append_right _ (List.mem_cons_self))).2
  | index ha _ _ hx _ ih => exact ih (IsArray.mem_value ha _ (List.mem_of_getElem? hx)).1

theorem leads_get {doc v t rest : Bytes} {ks : List Bytes} (hv : IsValue v) (hd : Padded v doc) (hk : ∀ k ∈ ks, Selector k)
    (hne : ks ≠ []) (hl : Leads Hits v ks t) (hg : Settles rest t) :
    SameRes (get doc (dotPath ks ++ c! '.' :: rest)) (get t rest) := by
  have ho : OrdComps ks := fun k h => Selector.ord (hk k h)
  have h := (leads_dotted hl ho hg).2
  refine SameRes.trans ?_ h
  rw [← dotted_eq hne]
  obtain ⟨k, ks, rfl⟩ := List.exists_cons_of_ne_nil hne
  exact get_padded_any (key_looksUp (ho k (by simp)) _) hv hd (padded_self v)

/-- C44 for a modifier or multipath: it is applied to the value the components lead
to. -/
theorem C44_call {doc v t : Bytes} {ks : List Bytes} (hv : IsValue v) (hd : Padded v doc) (hk : ∀ k ∈ ks, Selector k)
    (hne : ks ≠ []) (hl : Leads Hits v ks t) {c : UInt8} (hc : c ∈ b!"@{[") (rest : Bytes) :
    SameRes (get doc (dotPath ks ++ c! '.' :: c :: rest)) (get t (c :: rest)) :=
  leads_get hv hd hk hne hl (.inr (.inl (calls_of (by simp at hc; grind))))

/-- C44 when the components lead to a scalar: any path, applied to it. -/
theorem C44_scalar {doc v t : Bytes} {ks : List Bytes} (hv : IsValue v) (hd : Padded v doc) (hk : ∀ k ∈ ks, Selector k)
    (hne : ks ≠ []) (hl : Leads Hits v ks t) (hs : kindOf t ≠ .object ∧ kindOf t ≠ .array) (rest : Bytes) :
    SameRes (get doc (dotPath ks ++ c! '.' :: rest)) (get t rest) :=
  leads_get hv hd hk hne hl (.inl (by rintro (h | h); exact hs.1 h; exact hs.2 h))

/-- C44 when the components lead to an array: `#`, alone or followed by more. -/
theorem C44_hash {doc v t : Bytes} {ks vs : List Bytes} (hv : IsValue v) (hd : Padded v doc) (hk : ∀ k ∈ ks, Selector k)
    (hne : ks ≠ []) (hl : Leads Hits v ks t) (ha : IsArray t vs) {r : Bytes} (hr : ∀ c ∈ r.head?, c = c! '.' ∨ c = c! '|') :
    SameRes (get doc (dotPath ks ++ (b!".#" ++ r))) (get t (b!"#" ++ r)) :=
  leads_get hv hd hk hne hl (settles_hash ha hr)

/-- C44 when the components lead to an array: `#(query)#`, alone or followed by
more. -/
theorem C44_all {doc v t q lh rh : Bytes} {op : Option Op} {ks vs : List Bytes} (hv : IsValue v) (hd : Padded v doc)
    (hk : ∀ k ∈ ks, Selector k) (hne : ks ≠ []) (hl : Leads Hits v ks t) (ha : IsArray t vs) (hq : QueryText q lh op rh)
    {r : Bytes} (hr : ∀ c ∈ r.head?, c = c! '.' ∨ c = c! '|') :
    SameRes (get doc (dotPath ks ++ (b!".#(" ++ (q ++ (b!")#" ++ r))))) (get t (b!"#(" ++ (q ++ (b!")#" ++ r)))) := by
  have := leads_get hv hd hk hne hl (settles_all ha hq hr)
  simpa [queryComp] using this

/-- C44 when the components lead to an array in which the query holds for some
element: `#(query)`, alone or followed by more. -/
theorem C44_first {doc v t q lh rh : Bytes} {op : Option Op} {ks vs : List Bytes} (hv : IsValue v) (hd : Padded v doc)
    (hk : ∀ k ∈ ks, Selector k) (hne : ks ≠ []) (hl : Leads Hits v ks t) (ha : IsArray t vs) (hq : QueryText q lh op rh)
    (hm : ∃ e ∈ vs, QueryHolds lh op rh e true) {r : Bytes} (hr : ∀ c ∈ r.head?, c = c! '.' ∨ c = c! '|') :
    SameRes (get doc (dotPath ks ++ (b!".#(" ++ (q ++ (b!")" ++ r))))) (get t (b!"#(" ++ (q ++ (b!")" ++ r)))) := by
  obtain ⟨test, ht⟩ := C14_test (.array ha (padded_self t)) hq
  obtain ⟨e, he, hb⟩ := hm
  have hte : test e = true := by
    obtain ⟨b, _, h2⟩ := C14_decided hq (IsArray.mem_value ha e he).1
    rw [h2 _ hb, h2 _ (ht e he)]
  have := leads_get hv hd hk hne hl (settles_first ha hq hr ht ⟨e, he, hte⟩)
  simpa [queryComp] using this

theorem leads_index {v u t k : Bytes} {ks vs : List Bytes} {n : Nat} (hl : Leads Hits v ks u) (ha : IsArray u vs)
    (hi : IndexText k n) (hn : n < 2 ^ 63) (hx : vs[n]? = some t) : Leads Hits v (ks ++ [k]) t := by
  induction hl with
  | here => exact .index ha hi hn hx .here
  | key h1 h2 h3 _ ih => exact .key h1 h2 h3 (ih ha)
  | index h1 h2 h3 h4 _ ih => exact .index h1 h2 h3 h4 (ih ha)

theorem dotted_append (ks : List Bytes) (k rest : Bytes) : dotted (ks ++ [k]) rest = dotted ks (k ++ c! '.' :: rest) := by
  unfold dotted; rw [List.foldr_append]; rfl

/-- C44 when the last component is an index: any path, applied to the element. -/
theorem C44_index {doc v u t k : Bytes} {ks vs : List Bytes} {n : Nat} (hv : IsValue v) (hd : Padded v doc)
    (hk : ∀ x ∈ ks ++ [k], Selector x) (hl : Leads Hits v ks u) (ha : IsArray u vs)
    (hi : IndexText k n) (hn : n < 2 ^ 63) (hx : vs[n]? = some t) (rest : Bytes) :
    SameRes (get doc (dotPath (ks ++ [k]) ++ c! '.' :: rest)) (get t rest) := by
  have hok : OrdComp k := Selector.ord (hk k (by simp))
  obtain ⟨h1, h2⟩ := index_step (rest := rest) hok ha hi hn hx
  have hlk := key_looksUp hok rest
  have ho : OrdComps (ks ++ [k]) := fun k h => Selector.ord (hk k h)
  rw [← dotted_eq (by simp), dotted_append]
  refine SameRes.trans (b := get v (dotted ks (k ++ c! '.' :: rest))) ?_ ?_
  · cases ks with
    | nil => exact get_padded_any hlk hv hd (padded_self v)
    | cons k' ks => exact get_padded_any (key_looksUp (ho k' (by simp)) _) hv hd (padded_self v)
  · exact (leads_dotted hl (fun x hx => ho x (by simp [hx])) (.inr (.inr ⟨hlk, h1⟩))).2.trans h2

/-- Following plain keys is `Resolves`, as in C07. -/
theorem resolves_leads {v t : Bytes} {ks : List Bytes} (hp : ∀ k ∈ ks, PlainKey k) (h : Resolves KeyIs v ks t) : Leads Hits v ks t := by
  have hit : ∀ {k kl s : Bytes}, PlainKey k → KeyIs kl s → (Hits k kl ↔ s = k) := by
    intro k kl s hk hs
    have h1 := hitOk_code (ks := [k]) k (by simp) kl s hs
    have h2 := hitOk_plain (ks := [k]) (by simpa using hk) k (by simp) kl s hs
    refine (h1.trans h2.symm).trans ⟨fun h => keyIs_fun hs h, fun h => h ▸ hs⟩
  induction h with
  | here => exact .here
  | key ho hb hk _ ih =>
    refine .key ho ?_ ((hit (hp _ (by simp)) hk).2 rfl) (ih fun x hx => hp x (List.mem_cons_of_mem _ hx))
    intro m hm hh
    obtain ⟨s, h1, h2⟩ := hb m hm
    exact h2 ((hit (hp _ (by simp)) h1).1 hh)
  | index ha hi hn hx _ ih => exact .index ha hi hn hx (ih fun x hx => hp x (List.mem_cons_of_mem _ hx))

/-- C44 for plain keys that resolve as in C07. -/
theorem C44_plain {doc v t : Bytes} {ks : List Bytes} (hv : IsValue v) (hd : Padded v doc) (hp : ∀ k ∈ ks, PlainKey k ∧ k ≠ [])
    (hne : ks ≠ []) (hl : Resolves KeyIs v ks t) :
    (∀ c ∈ b!"@{[", ∀ rest, SameRes (get doc (dotPath ks ++ c! '.' :: c :: rest)) (get t (c :: rest))) ∧
    (∀ vs r, IsArray t vs → (∀ c ∈ r.head?, c = c! '.' ∨ c = c! '|') →
      SameRes (get doc (dotPath ks ++ (b!".#" ++ r))) (get t (b!"#" ++ r))) := by
  have hk : ∀ k ∈ ks, Selector k := fun k h => PlainKey.selector (hp k h).1 (hp k h).2
  have hl := resolves_leads (fun k h => (hp k h).1) hl
  exact ⟨fun c hc rest => C44_call hv hd hk hne hl hc rest, fun vs r ha hr => C44_hash hv hd hk hne hl ha hr⟩

theorem rest_cases {rest : Bytes} (h : ¬ b!".." <+: rest) : LooksUp rest ∨ Calls rest := by
  cases rest with
  | nil => exact .inl (looksUp_of (by simp) h)
  | cons c r =>
    by_cases hc : c = c! '@' ∨ c = c! '{' ∨ c = c! '['
    · exact .inr (calls_of hc)
    · refine .inl (looksUp_of (fun d hd => ?_) h)
      simp at hd; subst hd
      simp only [not_or] at hc; exact hc

/-- C44 and C11, in documents in which the keys of the path are not nested: a dot is
a pipe, for any rest of the path (that is not itself JSON Lines), found or not. -/
theorem C44_unnested {doc v rest : Bytes} {ks : List Bytes} (hv : IsValue v) (hd : Padded v doc) (hk : ∀ k ∈ ks, Selector k)
    (hne : ks ≠ []) (hu : ∀ k ∈ ks, Unnested (Hits k) v) (hr : ¬ b!".." <+: rest) :
    SameRes (get doc (dotPath ks ++ c! '.' :: rest)) (get doc (dotPath ks) >>= fun w => get w.json rest) ∧
    SameRes (get doc (dotPath ks ++ c! '.' :: rest)) (get doc (dotPath ks ++ c! '|' :: rest)) := by
  have ho : OrdComps ks := fun k h => Selector.ord (hk k h)
  have h := unnested_dotted hne (hitOk_code (ks := ks)) ho (rest_cases hr) hv hd hu
  rw [dotted_eq hne] at h
  have hp := C12_pipe doc rest hk hne
  exact ⟨h.trans (hp.symm.trans (C12_pipe_text doc rest hk hne)), h.trans hp.symm⟩

/-- C44 is about first members only: with nested or repeated keys a dot may find
what a pipe does not. Here the query holds for no element of the first `a`. -/
theorem C44_nested :
    (get b!"{\"a\":[1],\"a\":[3]}" b!"a.#(>2)" >>= fun v => .ok v.json) = .ok b!"3" ∧
    (get b!"{\"a\":[1],\"a\":[3]}" b!"a|#(>2)" >>= fun v => .ok v.json) = .ok [] := by decide +kernel

/-- The hypotheses of C44 can be met. -/
theorem sampleDeep : Resolves KeyIs b!"{\"id\":7,\"t\":{\"rows\":[{\"k\":1},{\"k\":2}]}}" [b!"t", b!"rows"] b!"[{\"k\":1},{\"k\":2}]" := by
  have key : ∀ {k kl : Bytes}, keyIsB k kl = true → KeyIs kl k := fun h => keyIsB_iff.1 h
  have h1 : IsObject b!"{\"id\":7,\"t\":{\"rows\":[{\"k\":1},{\"k\":2}]}}"
      [(b!"\"id\"", b!"7"), (b!"\"t\"", b!"{\"rows\":[{\"k\":1},{\"k\":2}]}")] :=
    isObject_of (t := b!"{\"id\":7,\"t\":{\"rows\":[{\"k\":1},{\"k\":2}]}}") (by decide +kernel) (by decide) (by decide) (by decide +kernel)
  have h2 : IsObject b!"{\"rows\":[{\"k\":1},{\"k\":2}]}" [(b!"\"rows\"", b!"[{\"k\":1},{\"k\":2}]")] :=
    isObject_of (t := b!"{\"rows\":[{\"k\":1},{\"k\":2}]}") (by decide +kernel) (by decide) (by decide) (by decide +kernel)
  refine .key (before := [_]) h1 ?_ (key (by decide +kernel)) (.key (before := []) h2 (by simp) (key (by decide +kernel)) .here)
  intro m hm; simp at hm; subst hm
  exact ⟨b!"id", key (by decide +kernel), by decide⟩

example : (get b!"{\"id\":7,\"t\":{\"rows\":[{\"k\":1},{\"k\":2}]}}" b!"t.rows.#.k" >>= fun v => .ok v.json) = .ok b!"[1,2]" ∧
    (get b!"{\"id\":7,\"t\":{\"rows\":[{\"k\":1},{\"k\":2}]}}" b!"t.rows.@reverse.0.k" >>= fun v => .ok v.json) = .ok b!"2" ∧
    (get b!"{\"id\":7,\"t\":{\"rows\":[{\"k\":1},{\"k\":2}]}}" b!"t.rows.[0.k,#]" >>= fun v => .ok v.json) = .ok b!"[1,2]" ∧
    (get b!"{\"id\":7,\"t\":{\"rows\":[{\"k\":1},{\"k\":2}]}}" b!"t.rows.#(k>1).k" >>= fun v => .ok v.json) = .ok b!"2" := by
  decide +kernel

/-! ### C11, C40 for any path -/

/-- C40: whatever whitespace surrounds the document, every path that does not begin
with a modifier, a multipath or `..` gives the same result. -/
theorem C40_get_any {t d1 d2 path : Bytes} (hv : IsValue t) (h1 : Padded t d1) (h2 : Padded t d2)
    (hc : ∀ c ∈ path.head?, c ∉ b!"@{[") (hd : ¬ b!".." <+: path) : SameRes (get d1 path) (get d2 path) :=
  get_padded_any (looksUp_of (fun c h => by have := hc c h; simp at this; grind) hd) hv h1 h2

/-- C11: looking up in the parsed document is looking up in the document, for every
path that does not begin with a modifier, a multipath or `..`. -/
theorem C11_parse_any {doc path : Bytes} (h : JsonText doc) (hc : ∀ c ∈ path.head?, c ∉ b!"@{[") (hd : ¬ b!".." <+: path) :
    ∃ v, parse doc = .ok v ∧ SameRes (v.get path) (get doc path) := by
  obtain ⟨w1, t, w2, rfl, u1, u2, ht⟩ := h
  have hpad : Padded t (w1 ++ (t ++ w2)) := ⟨w1, w2, u1, u2, rfl⟩
  obtain ⟨v, hp, hone, hpv⟩ := parse_padded ht hpad
  exact ⟨v, hp, (getIn_same hone path).trans (C40_get_any ht hpv hpad hc hd)⟩

/-! ### C12 for any path -/

/-- C12 for components of every kind (keys, patterns, indexes, `#`, queries, modifier
calls, multipaths), separated by dots: a pipe applies the rest of the path to the
result, for all texts and all second paths. -/
theorem C12_pipe_any (text b : Bytes) {ks : List Bytes} (hk : ∀ k ∈ ks, Part k) (hne : ks ≠ []) :
    SameRes (get text (dotPath ks ++ c! '|' :: b)) (get text (dotPath ks) >>= fun v => v.get b) :=
  get_piped_any b (Nat.le_refl _) hk hne text

/-- C12 for components of every kind, in terms of texts only. -/
theorem C12_pipe_any_text (text b : Bytes) {ks : List Bytes} (hk : ∀ k ∈ ks, Part k) (hne : ks ≠ []) :
    SameRes (get text (dotPath ks ++ c! '|' :: b)) (get text (dotPath ks) >>= fun v => get v.json b) := by
  refine (C12_pipe_any text b hk hne).trans ?_
  cases h : get text (dotPath ks) with
  | error e => exact .error e
  | ok v => exact C12_value_get (.get h) b

/-- C12 for JSON Lines. -/
theorem C12_pipe_lines (text b : Bytes) {ks : List Bytes} (hk : ∀ k ∈ ks, Part k) (hne : ks ≠ []) :
    SameRes (get text (b!".." ++ (dotPath ks ++ c! '|' :: b))) (get text (b!".." ++ dotPath ks) >>= fun v => get v.json b) := by
  refine (get_piped_lines b hk hne text).trans ?_
  cases h : get text (b!".." ++ dotPath ks) with
  | error e => exact .error e
  | ok v => exact C12_value_get (.get h) b

/-- C12 for the empty component, which finds the member with the empty key. -/
theorem C12_pipe_empty (text b : Bytes) :
    get text (c! '|' :: b) = (get text [] >>= fun v => v.get b) := by
  rw [get_start (path := []) rfl (by rw [pNext_blank]; exact ⟨rfl, rfl⟩), get_start (path := c! '|' :: b) (by cases b <;> rfl) (by rw [pNext_pipe]; exact ⟨rfl, rfl⟩),
    pNext_blank, pNext_pipe]
  have := gStart_blank b text.length text
  generalize gStart get text.length ⟨[], false, false, c! '|', 0, b⟩ text = X at this
  generalize gStart get text.length ⟨[], false, false, 0, 0, []⟩ text = Y at this
  cases this with
  | error e => rfl
  | ok h =>
    rename_i x y
    obtain ⟨x1, x2⟩ := x
    obtain ⟨y1, y2⟩ := y
    obtain ⟨h1, h2, h3⟩ := h
    simp only at h1 h2 h3
    subst h1 h2 h3
    rfl

example : ∃ v, get b!"{\"\":{\"\":[5,6]}}" b!"||1" = .ok v ∧ v.json = b!"6" := ⟨_, rfl, by decide +kernel⟩

/-- Any number of pipes: the parts of the path are applied one after the other. -/
def pipeline (t : Bytes) : List (List Bytes) → Res Value
  | [] => get t []
  | [ks] => get t (dotPath ks)
  | ks :: rest => get t (dotPath ks) >>= fun v => pipeline v.json rest

/-- The parts of a path with pipes between them. -/
def pipePath : List (List Bytes) → Bytes
  | [] => []
  | [ks] => dotPath ks
  | ks :: rest => dotPath ks ++ c! '|' :: pipePath rest

/-- C12, any number of pipes. -/
theorem C12_pipeline {kss : List (List Bytes)} (hk : ∀ ks ∈ kss, ks ≠ [] ∧ ∀ k ∈ ks, Part k) :
    ∀ text, SameRes (get text (pipePath kss)) (pipeline text kss) := by
  induction kss with
  | nil => exact fun text => .refl _
  | cons ks kss ih =>
    intro text
    cases kss with
    | nil => exact .refl _
    | cons ks' kss =>
      obtain ⟨h1, h2⟩ := hk ks (by simp)
      refine (C12_pipe_any_text text (pipePath (ks' :: kss)) h2 h1).trans ?_
      show SameRes _ (get text (dotPath ks) >>= fun v => pipeline v.json (ks' :: kss))
      cases h : get text (dotPath ks) with
      | error e => exact .error e
      | ok v => exact ih (fun x hx => hk x (List.mem_cons_of_mem _ hx)) v.json

/-- The brackets of a multipath have to match: after `[a}` the rest of the path is
dropped. -/
theorem C12_mismatched :
    (get b!"{}" b!"[a}|[x]" >>= fun v => .ok v.json) = .ok [] ∧
    (get b!"{}" b!"[a}" >>= fun v => get v.json b!"[x]" >>= fun w => .ok w.json) = .ok b!"[]" := by decide +kernel

/-- Components of every kind. -/
example : Part b!"a*" ∧ Part b!"#" ∧ Part b!"#( k >= 3)#" ∧ Part b!"@reverse" ∧ Part b!"[a,#(b)]" :=
  ⟨.selector ⟨.plain (by decide) (.plain (by decide) .nil), by decide, by decide⟩, .hash, .all sampleQuery,
    .call (n := b!"reverse") (.bare (by decide)),
    .array (b := b!"a,#(b)") (.plain (by decide) (.plain (by decide) (.plain (by decide)
      (.group (o := c! '(') (b := b!"b") (c := c! ')') (r := []) (by decide) (by decide) (.plain (by decide) .nil) .nil))))⟩

example : (get sampleRows b!"#( k >= 3)#.[k,n]|@reverse.0|1" >>= fun v => .ok v.json) = .ok b!"\"y\"" := by decide +kernel

/-! ### C13, C14 for any path -/

/-- C13 for components of every kind: `#.path` gives the array of the results of
the path on the elements. -/
theorem C13_map_any {doc pre : Bytes} {vs : List Bytes} (h : Sequence doc pre vs) {ks : List Bytes} (hk : ∀ k ∈ ks, Part k)
    (hne : ks ≠ []) {ws : List Value} (hw : ResultsOf (dotPath ks) vs ws) :
    ∃ w, get doc (pre ++ (b!"#." ++ dotPath ks)) = .ok w ∧ w.exists = true ∧
      w.kind = .array ∧ w.json = arrayText (found ws) ∧
      ((∀ x ∈ ws, x.exists = true → IsValue x.json) → IsArray w.json (found ws)) := by
  have := sequence_mapAny h (fun k h => whole_part (hk k h)) hne (sep := 0) (rest := []) (t := []) ⟨rfl, rfl⟩ (by decide) hw
  rw [List.append_nil] at this
  refine ⟨_, this, ?_, ?_, mkOwned_json _ _ _, ?_⟩
  · rw [mkOwned_exists]; rfl
  · rw [mkOwned_kind]; decide
  · intro hv
    rw [mkOwned_json]
    refine arrayText_isArray fun v hx => ?_
    obtain ⟨x, h1, rfl⟩ := List.mem_map.1 hx
    have := List.mem_filter.1 h1
    exact hv x this.1 (by simpa using this.2)

/-- C13: the results are there, unless the path has a query with a `@pretty` that may be
asked for a prefix (C04). -/
theorem C13_results (path : Bytes) (vs : List Bytes) (hp : ¬ PrefixInQuery path) :
    ∃ ws, ResultsOf path vs ws := by
  induction vs with
  | nil => exact ⟨[], .nil⟩
  | cons v vs ih =>
    obtain ⟨ws, h⟩ := ih
    obtain ⟨w, hw⟩ := C04_get_partial v path hp
    exact ⟨w :: ws, .cons hw h⟩

/-- C14 with C13 for components of every kind: `#(query)#.path` maps the path over
the matching elements. -/
theorem C14_all_map_any {doc pre q lh rh : Bytes} {vs : List Bytes} {op : Option Op} (h : Sequence doc pre vs)
    (hq : QueryText q lh op rh) {test : Bytes → Bool} (ht : ∀ e ∈ vs, QueryHolds lh op rh e (test e))
    {ks : List Bytes} (hk : ∀ k ∈ ks, Part k) (hne : ks ≠ []) {ws : List Value} (hw : ResultsOf (dotPath ks) (vs.filter test) ws) :
    ∃ w, get doc (pre ++ (b!"#(" ++ (q ++ (b!")#." ++ dotPath ks)))) = .ok w ∧ w.kind = .array ∧
      w.json = arrayText (found ws) := by
  have := sequence_allMapAny h hq ht (fun k h => whole_part (hk k h)) hne (sep := 0) (rest := []) (t := []) ⟨rfl, rfl⟩ (by decide) hw
  have e : get doc (pre ++ (b!"#(" ++ (q ++ (b!")#." ++ dotPath ks)))) = .ok (mkOwned (arrayText (existing ws)) none INFO_ARRAY) := by
    simpa [queryComp] using this
  refine ⟨_, e, ?_, mkOwned_json _ _ _⟩
  rw [mkOwned_kind]; decide

/-- Mapping modifiers, multipaths, nested mappings and queries. -/
example : (get sampleRows b!"#.{k}" >>= fun v => .ok v.json) = .ok b!"[{\"k\":1},{\"k\":22},{\"k\":3}]" ∧
    (get b!"[[2,1],[3],5]" b!"#.@reverse" >>= fun v => .ok v.json) = .ok b!"[[1,2],[3],5]" ∧
    (get b!"[[{\"a\":1},{\"a\":2}],[{\"a\":3}]]" b!"#.#.a" >>= fun v => .ok v.json) = .ok b!"[[1,2],[3]]" ∧
    (get b!"[[2,1],[3],5]" b!"#.#(>1)#" >>= fun v => .ok v.json) = .ok b!"[[2],[3]]" := by decide +kernel

end Gjson
