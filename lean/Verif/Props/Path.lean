import Verif.Lemmas.Route
import Verif.Lemmas.MeansUtf8
import Verif.Props.Results
/-
C48: what whole paths mean. `Spec.Means` has one set of rules for all kinds of
components; `get` obeys them. For JSON texts and the paths of `Spec.Route` they always
give a result.
-/
namespace Gjson
open Spec

/-- C48: what the rules say that a path finds is the text of what `get` returns.
A value exists exactly if that text is not empty, and when the text is a JSON value
(or an array or object and whitespace) the value is what `parse` makes of it. -/
theorem C48_means {doc path r : Bytes} (h : Means doc path r) :
    ∃ w, get doc path = .ok w ∧ w.json = r ∧ (w.exists = true ↔ r ≠ []) ∧ (r = [] → SameValue w Value.default) ∧
      (Lead r → SameAsText w r) := by
  obtain ⟨w, h1, h2⟩ := means_ok h
  refine ⟨w, h1, h2.1, by rw [fits_exists h2]; simp, h2.2, fun hl => ?_⟩
  have := (get_prov h1).same (by rw [h2.1]; exact hl)
  rwa [h2.1] at this

/-- C48: the rules do not contradict each other. -/
theorem C48_determined {doc path r r' : Bytes} (h : Means doc path r) (h' : Means doc path r') : r = r' := by
  obtain ⟨w, h1, h2⟩ := means_ok h
  obtain ⟨w', h1', h2'⟩ := means_ok h'
  rw [h1] at h1'
  cases h1'
  exact h2.1.symm.trans h2'.1

/-- C48: texts and paths with the same meaning have results that no accessor can tell
apart, if that meaning is nothing or JSON. -/
theorem C48_same {doc path doc' path' r : Bytes} (h : Means doc path r) (h' : Means doc' path' r) (hr : r = [] ∨ Lead r) :
    SameRes (get doc path) (get doc' path') := by
  obtain ⟨w, h1, h2, _, h4, h5⟩ := C48_means h
  obtain ⟨w', h1', h2', _, h4', h5'⟩ := C48_means h'
  rw [h1, h1']
  rcases hr with hr | hr
  · exact .ok ((h4 hr).trans (h4' hr).symm)
  · obtain ⟨_, _, u, p, q⟩ := h5 hr
    obtain ⟨_, _, u', p', q'⟩ := h5' hr
    rw [p] at p'
    cases p'
    exact .ok (q.trans q'.symm)

/-- An index, a count and a modifier. -/
example : Means b!"[10, [20,30]]" b!"1.#|@this" b!"2" := by
  have num : ∀ v, valid v = .ok true → trimmed v = true → IsValue v := fun v h1 h2 => value_of_valid h1 h2
  have h1 : IsArray b!"[10, [20,30]]" [b!"10", b!"[20,30]"] := by
    have := isArray_of_elems (es := [⟨[], b!"10", []⟩, ⟨b!" ", b!"[20,30]", []⟩])
      (by intro e he; simp at he; rcases he with rfl | rfl <;> exact ⟨by decide, by decide⟩)
      (by intro e he; simp at he; rcases he with rfl | rfl <;> exact num _ (by decide +kernel) (by decide))
    exact this
  have h2 : IsArray b!"[20,30]" [b!"20", b!"30"] := by
    have := isArray_of_elems (es := [⟨[], b!"20", []⟩, ⟨[], b!"30", []⟩])
      (by intro e he; simp at he; rcases he with rfl | rfl <;> exact ⟨by decide, by decide⟩)
      (by intro e he; simp at he; rcases he with rfl | rfl <;> exact num _ (by decide +kernel) (by decide))
    exact this
  have pad : ∀ v, Padded v v := fun v => ⟨[], [], by simp [Ws], by simp [Ws], by simp⟩
  refine .look (pad _) (.arr h1 (.elem (k := b!"1") (n := 1) ?_ ?_ (by decide) rfl (.dot (.look (pad _) (.arr h2 (.count (by decide) (.pipe ?_)))))))
  · exact PlainKey.selector ⟨by decide, by decide⟩ (by decide)
  · exact ⟨b!"1", by decide, by decide, rfl, .inl rfl⟩
  · exact .call (m := b!"@this") (t := []) (.bare (by decide)) .this (.scalar (num _ (by decide +kernel) (by decide)) (by decide) (by decide) (pad _)) .done


theorem sizedVal_lead {n : Nat} {r : Bytes} (h : SizedVal n r) : r = [] ∨ Lead r := by
  rcases h with h | ⟨v, w, e, h1, h2, h3⟩
  · exact .inl h
  · rcases h3 with rfl | h3
    · rw [List.append_nil] at e
      subst e
      exact .inr (.inl h1.value)
    · exact .inr (.inr ⟨v, w, e, h1.value, h2, h3⟩)

theorem jsonText_sized {doc : Bytes} (h : JsonText doc) : ∃ n, SizedText n doc := by
  obtain ⟨v, d, hp, hd⟩ := jsonText_doc h
  exact ⟨d.height, .inr ⟨v, hp, d, hd, Nat.le_refl _⟩⟩

/-- C48: for every JSON text and every path the rules give a result, and it is a JSON
value or nothing. -/
theorem C48_defined {doc path : Bytes} (hd : JsonText doc) (hp : Route path) : ∃ r, Means doc path r ∧ (r = [] ∨ Lead r) := by
  obtain ⟨n, hs⟩ := jsonText_sized hd
  obtain ⟨r, h1, h2⟩ := route_total hp n doc hs
  exact ⟨r, h1, sizedVal_lead h2⟩

/-- C48: a path of length `m` finds nothing that is nested deeper than the text by more
than `m`. -/
theorem C48_height {doc path r : Bytes} {n : Nat} (hd : SizedText n doc) (hp : Route path) (hr : Means doc path r) :
    SizedVal (n + path.length) r := by
  obtain ⟨r', h1, h2⟩ := route_total hp n doc hd
  rwa [C48_determined hr h1]

/-- C48: for JSON Lines. -/
theorem C48_defined_lines {doc path : Bytes} {vs : List Bytes} (hd : JsonLines doc vs) (hp : Route path)
    (hs : ∀ c ∈ path.head?, c ∉ b!"@{[") : ∃ r, Means doc (b!".." ++ path) r ∧ (r = [] ∨ Lead r) := by
  have hv : ∀ {doc : Bytes} {vs : List Bytes}, JsonLines doc vs → ∃ n, ∀ v ∈ vs, HasHeight n v := by
    intro doc vs h
    have one : ∀ {v}, IsValue v → ∃ n, HasHeight n v := fun h => by
      obtain ⟨d, hd⟩ := denotes_of_value h
      exact ⟨d.height, d, hd, Nat.le_refl _⟩
    induction h with
    | nil => exact ⟨0, by simp⟩
    | last _ h =>
      obtain ⟨n, hn⟩ := one h
      exact ⟨n, by simpa using hn⟩
    | cons _ h _ _ ih =>
      obtain ⟨n, hn⟩ := one h
      obtain ⟨m, hm⟩ := ih
      refine ⟨n + m, ?_⟩
      intro x hx
      rcases List.mem_cons.1 hx with rfl | hx
      · exact hn.mono (by omega)
      · exact (hm x hx).mono (by omega)
  obtain ⟨n, hv⟩ := hv hd
  obtain ⟨r, h1, h2⟩ := lines_total hp hs hd hv
  exact ⟨r, h1, sizedVal_lead h2⟩

/-- C48: on JSON texts the rules are exactly what `get` does. -/
theorem C48_exact {doc path : Bytes} (hd : JsonText doc) (hp : Route path) (r : Bytes) :
    Means doc path r ↔ ∃ w, get doc path = .ok w ∧ w.json = r := by
  obtain ⟨r', h, _⟩ := C48_defined hd hp
  obtain ⟨w, h1, h2, _⟩ := C48_means h
  constructor
  · intro h'
    rw [C48_determined h' h]
    exact ⟨w, h1, h2⟩
  · rintro ⟨w', h3, h4⟩
    rw [h1] at h3
    cases h3
    rw [← h4, h2]
    exact h

/-! A path with a query, a multipath, a modifier and an index, and what it means. -/

theorem sampleRoute : Route b!"a.#( k >= 3)#.{k,n:c.#}|@reverse|0" := by
  have key : ∀ k : Bytes, PlainKey k → k ≠ [] → Leg k := fun k h hn => .selector (PlainKey.selector h hn)
  refine .more (k := b!"a") (key _ (by decide) (by decide)) (.inl rfl) ?_
  refine .more (k := b!"#( k >= 3)#") (.all sampleQuery (fun _ => .last (key _ (by decide) (by decide))) (.inl (by decide))) (.inl rfl) ?_
  refine .more (k := b!"{k,n:c.#}") ?_ (.inr rfl) ?_
  · have sub : ∀ q : Bytes, (∀ c ∈ q, c ∉ bracketSpecial ∧ c ≠ c! ',' ∧ c ≠ c! ':') → SubPath q := by
      intro q
      induction q with
      | nil => exact fun _ => .nil
      | cons c q ih =>
        intro h
        obtain ⟨h1, h2, h3⟩ := h c (by simp)
        exact .plain h1 h2 h3 (ih fun d hd => h d (List.mem_cons_of_mem _ hd))
    refine .object (ts := [b!"k", b!"n:c.#"]) (es := [(b!"k", b!"k"), (b!"n", b!"c.#")]) (.cons ?_ (.cons ?_ .nil)) (by simp) ?_
    · exact .last (sub _ (by decide)) (.whole (by
        intro a s r e hs
        have : s ∈ b!"k" := by rw [e]; simp
        rw [List.mem_singleton.1 this] at hs
        exact absurd hs (by decide))) (by unfold SimpleName; decide)
    · exact .named (k := b!"n") (.plain (by decide) (by decide) .nil) (sub _ (by decide))
    · intro e he
      simp only [List.mem_cons, List.not_mem_nil, or_false] at he
      rcases he with rfl | rfl
      · exact .last (key _ (by decide) (by decide))
      · exact .more (k := b!"c") (key _ (by decide) (by decide)) (.inl rfl) (.last .hash)
  · exact .more (k := b!"@reverse") (.call (.bare (by decide)) (by decide)) (.inr rfl) (.last (key _ (by decide) (by decide)))

example : Means b!"{\"a\":[{\"k\":2},{\"k\":3},{\"k\":4,\"c\":[5,6]}]}" b!"a.#( k >= 3)#.{k,n:c.#}|@reverse|0" b!"{\"k\":4,\"n\":2}" :=
  (C48_exact ((C01_valid_iff_rfc8259 _).1 (by decide +kernel)) sampleRoute _).2 (by
    have : (get b!"{\"a\":[{\"k\":2},{\"k\":3},{\"k\":4,\"c\":[5,6]}]}" b!"a.#( k >= 3)#.{k,n:c.#}|@reverse|0" >>= fun v => .ok v.json) =
      .ok b!"{\"k\":4,\"n\":2}" := by decide +kernel
    obtain ⟨w, h1, h2⟩ := bind_eq_ok.1 this
    exact ⟨w, h1, Except.ok.inj h2⟩)

/-- `@pretty` with an option, and where the options come from. -/
example : Route b!"@pretty:{\"sortKeys\":true}|b" := by
  have ha : JsonText b!"{\"sortKeys\":true}" := (C01_valid_iff_rfc8259 _).1 (by decide +kernel)
  have opt : ∀ (k r : Bytes), PlainKey k → k ≠ [] → (get b!"{\"sortKeys\":true}" k >>= fun v => .ok v.json) = .ok r → Means b!"{\"sortKeys\":true}" k r := by
    intro k r h1 h2 h3
    obtain ⟨w, h4, h5⟩ := bind_eq_ok.1 h3
    exact (C48_exact ha (.last (.selector (PlainKey.selector h1 h2))) r).2 ⟨w, h4, Except.ok.inj h5⟩
  refine .more (k := b!"@pretty:{\"sortKeys\":true}") ?_ (.inr rfl) (.last (.selector (PlainKey.selector (k := b!"b") (by decide) (by decide))))
  exact .pretty (xi := []) (xp := []) (xs := b!"true") (xw := []) (n := 0) (.json (by decide) (value_of_valid (by decide +kernel) (by decide)) (by decide))
    (opt _ _ (by decide) (by decide) (by decide +kernel)) (.inl ⟨rfl, rfl⟩) (by decide)
    (opt _ _ (by decide) (by decide) (by decide +kernel)) .none ws_nil
    (opt _ _ (by decide) (by decide) (by decide +kernel)) (.yes (by decide))
    (opt _ _ (by decide) (by decide) (by decide +kernel)) (.inl ⟨rfl, rfl⟩)

/-! ### What follows for C41 and C36 -/

/-- C41, also with `@flatten`, `@join` and `@pretty` in paths of the grammar: a value, where
whitespace may follow an object or array. -/
theorem C41_route {json path : Bytes} {v : Value} (hj : JsonText json) (hp : Route path) (h : get json path = .ok v)
    (he : v.exists = true) : Lead v.json ∧ SameAsText v v.json ∧ valid v.json = .ok true := by
  obtain ⟨r, h1, h2⟩ := C48_defined hj hp
  obtain ⟨w, h3, h4, h5, _⟩ := C48_means h1
  rw [h] at h3
  cases h3
  have hl : Lead v.json := by
    rw [h4]
    exact h2.resolve_left (h5.1 he)
  obtain ⟨u, x, e, h6, h7⟩ := lead_split hl
  exact ⟨hl, (get_prov h).same hl, (C01_valid_iff_rfc8259 _).2 ⟨[], u, x, e, ws_nil, h7, h6⟩⟩

/-- C41 for JSON Lines and the paths of the grammar. -/
theorem C41_lines_route {doc path : Bytes} {vs : List Bytes} {v : Value} (hd : JsonLines doc vs) (hp : Route path)
    (hs : ∀ c ∈ path.head?, c ∉ b!"@{[") (h : get doc (b!".." ++ path) = .ok v) (he : v.exists = true) :
    Lead v.json ∧ SameAsText v v.json ∧ valid v.json = .ok true := by
  obtain ⟨r, h1, h2⟩ := C48_defined_lines hd hp hs
  obtain ⟨w, h3, h4, h5, _⟩ := C48_means h1
  rw [h] at h3
  cases h3
  have hl : Lead v.json := by
    rw [h4]
    exact h2.resolve_left (h5.1 he)
  obtain ⟨u, x, e, h6, h7⟩ := lead_split hl
  exact ⟨hl, (get_prov h).same hl, (C01_valid_iff_rfc8259 _).2 ⟨[], u, x, e, ws_nil, h7, h6⟩⟩

/-- C36 wherever the rules give a result, for all modifiers and options: its text is UTF-8. -/
theorem C36_means_partial {doc path r : Bytes} (h : Means doc path r) (hd : IsUtf8 doc) (hp : IsUtf8 path) :
    ∃ w, get doc path = .ok w ∧ w.json = r ∧ IsUtf8 w.json ∧ ((r = [] ∨ Lead r) → ∀ s, w.str = .ok s → IsUtf8 s) := by
  obtain ⟨w, h1, h2, h3, _⟩ := C48_means h
  have hu : IsUtf8 w.json := h2 ▸ means_utf8 h hd hp
  refine ⟨w, h1, h2, hu, fun hr s hs => str_utf8 (get_prov h1) (fun he => ?_) hu hs⟩
  rw [h2]
  exact hr.resolve_left (h3.1 he)

/-- C36 for JSON texts and all paths of the grammar. -/
theorem C36_route_partial {json path : Bytes} {v : Value} (hj : JsonText json) (hu : IsUtf8 json) (hp : Route path) (hpu : IsUtf8 path)
    (h : get json path = .ok v) : IsUtf8 v.json ∧ ∀ s, v.str = .ok s → IsUtf8 s := by
  obtain ⟨r, h1, h2⟩ := C48_defined hj hp
  obtain ⟨w, h3, h4, h5, h6⟩ := C36_means_partial h1 hu hpu
  rw [h] at h3
  cases h3
  exact ⟨h5, h6 h2⟩

/-- C36 for JSON Lines and the paths of the grammar. -/
theorem C36_lines_route_partial {doc path : Bytes} {vs : List Bytes} {v : Value} (hd : JsonLines doc vs) (hu : IsUtf8 doc) (hp : Route path)
    (hs : ∀ c ∈ path.head?, c ∉ b!"@{[") (hpu : IsUtf8 (b!".." ++ path)) (h : get doc (b!".." ++ path) = .ok v) :
    IsUtf8 v.json ∧ ∀ s, v.str = .ok s → IsUtf8 s := by
  obtain ⟨r, h1, h2⟩ := C48_defined_lines hd hp hs
  obtain ⟨w, h3, h4, h5, h6⟩ := C36_means_partial h1 hu hpu
  rw [h] at h3
  cases h3
  exact ⟨h5, h6 h2⟩

/-- Two lines and the path to a member of the second. -/
example : JsonLines b!"{\"é\":1}\n{\"é\":\"ñ\"}" [b!"{\"é\":1}", b!"{\"é\":\"ñ\"}"] ∧ IsUtf8 b!"{\"é\":1}\n{\"é\":\"ñ\"}" ∧ Route b!"1.é" ∧ IsUtf8 b!"..1.é" ∧
    ∃ v, get b!"{\"é\":1}\n{\"é\":\"ñ\"}" b!"..1.é" = .ok v ∧ v.exists = true := by
  have sel : ∀ k : Bytes, PlainKey k → k ≠ [] → Selector k := fun k h hn => PlainKey.selector h hn
  refine ⟨?_, by decide +kernel, ?_, by decide +kernel, found_of (by decide +kernel)⟩
  · exact .cons (w := []) (v := b!"{\"é\":1}") (c := c! '\n') (r := b!"{\"é\":\"ñ\"}") ws_nil (value_of_valid (by decide +kernel) (by decide)) (by decide)
      (.last (w := []) (v := b!"{\"é\":\"ñ\"}") ws_nil (value_of_valid (by decide +kernel) (by decide)))
  · exact .more (k := b!"1") (.selector (sel _ (by decide) (by decide))) (.inl rfl) (.last (.selector (sel _ (by decide) (by decide))))

/-- A text and a path with `@join`. -/
example : JsonText b!"[{\"é\":1},{\"é\":\"ñ\"}]" ∧ IsUtf8 b!"[{\"é\":1},{\"é\":\"ñ\"}]" ∧ Route b!"@join.é" ∧ IsUtf8 b!"@join.é" ∧
    ∃ v, get b!"[{\"é\":1},{\"é\":\"ñ\"}]" b!"@join.é" = .ok v ∧ v.exists = true := by
  refine ⟨(C01_valid_iff_rfc8259 _).1 (by decide +kernel), by decide +kernel, ?_, by decide +kernel, found_of (by decide +kernel)⟩
  have sel : ∀ k : Bytes, PlainKey k → k ≠ [] → Selector k := fun k h hn => PlainKey.selector h hn
  refine .more (k := b!"@join") (.join (.bare (by decide)) (x := []) ?_ ?_) (.inl rfl) (.last (.selector (sel _ (by decide) (by decide))))
  · have := Means.empty (k := b!"preserve") (t := []) (.selector (sel _ (by decide) (by decide))) .done
    simpa using this
  · exact .num (n := 0) (by decide) (by decide) (.other (.inl rfl))

end Gjson
