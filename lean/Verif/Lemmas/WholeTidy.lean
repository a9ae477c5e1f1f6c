import Verif.Lemmas.WholeTotal
import Verif.Lemmas.Edit
/-
JSON values with nothing between the brackets of empty arrays and objects: of these `@flatten`
makes JSON.
-/
namespace Gjson
open Spec

theorem tidy_value {v : Bytes} (h : Tidy v) : IsValue v := by
  cases h with
  | scalar h _ _ => exact h
  | array h _ _ => exact IsArray.isValue h
  | object h _ _ => exact IsObject.isValue h

theorem tidy_array {v : Bytes} {vs : List Bytes} (ha : IsArray v vs) (h : Tidy v) : (vs = [] → v = b!"[]") ∧ ∀ x ∈ vs, Tidy x := by
  cases h with
  | scalar _ _ hk => exact absurd (IsArray.kindOf ha) hk
  | array h h1 h2 => rw [isArray_unique ha h]; exact ⟨h1, h2⟩
  | object h _ _ => exact absurd ((IsArray.kindOf ha).symm.trans (IsObject.kindOf h)) (by decide)

theorem tidy_object {v : Bytes} {ms : List (Bytes × Bytes)} (ho : IsObject v ms) (h : Tidy v) : ∀ m ∈ ms, Tidy m.2 := by
  cases h with
  | scalar _ hk _ => exact absurd (IsObject.kindOf ho) hk
  | array h _ _ => exact absurd ((IsObject.kindOf ho).symm.trans (IsArray.kindOf h)) (by decide)
  | object h h1 h2 => rw [isObject_unique ho h]; exact h2

theorem stock_tidy : Stock Tidy where
  value := tidy_value
  elem ha h := (tidy_array ha h).2
  member ho h := tidy_object ho h
  number n := .scalar (numeral_height n).value (by rw [kind_of_digits]; decide) (by rw [kind_of_digits]; decide)
  array {es} hw hv := by
    by_cases h : es = []
    · subst h
      exact .array (vs := []) (.inl ⟨[], ws_nil, rfl, rfl⟩) (fun _ => rfl) (by simp)
    · refine .array (.inr ⟨es, h, hw, fun e he => tidy_value (hv e he), rfl, rfl⟩) (fun e => absurd (List.map_eq_nil_iff.1 e) h) ?_
      intro x hx
      obtain ⟨e, he, rfl⟩ := List.mem_map.1 hx
      exact hv e he
  object {ms} hw hv := by
    by_cases h : ms = []
    · subst h
      exact .object (ms := []) (.inl ⟨[], ws_nil, rfl, rfl⟩) (fun _ => rfl) (by simp)
    · refine .object (.inr ⟨ms, h, hw, fun e he => tidy_value (hv e he), rfl, rfl⟩) (fun e => absurd (List.map_eq_nil_iff.1 e) h) ?_
      intro x hx
      obtain ⟨e, he, rfl⟩ := List.mem_map.1 hx
      exact hv e he

theorem tidy_bare {v : Bytes} {d : Doc} (h : Denotes v d) : Tidy d.toks.flatten := by
  induction h with
  | leaf h h1 h2 => simpa [Doc.toks] using Tidy.scalar h h1 h2
  | arrEmpty _ => simpa [Doc.toks, elemToks, elemsText] using stock_tidy.array (es := []) (by simp) (by simp)
  | @arr es hne _ _ ih =>
    have := stock_tidy.array (es := es.map fun e => (⟨[], e.2.toks.flatten, []⟩ : Elem))
      (by intro e he; obtain ⟨x, hx, rfl⟩ := List.mem_map.1 he; exact ⟨ws_nil, ws_nil⟩)
      (by intro e he; obtain ⟨x, hx, rfl⟩ := List.mem_map.1 he; exact ih x hx)
    rw [elemsText_bare (fun e _ => rfl)] at this
    simpa [Doc.toks] using this
  | objEmpty _ => simpa [Doc.toks, memToks, membersText] using stock_tidy.object (ms := []) (by simp) (by simp)
  | @obj es hne hw _ ih =>
    have := stock_tidy.object (ms := es.map fun e => (⟨[], e.1.key, [], [], e.2.toks.flatten, []⟩ : Member))
      (by intro e he; obtain ⟨x, hx, rfl⟩ := List.mem_map.1 he; exact ⟨ws_nil, (hw x hx).2.1, ws_nil, ws_nil, ws_nil⟩)
      (by intro e he; obtain ⟨x, hx, rfl⟩ := List.mem_map.1 he; exact ih x hx)
    rw [membersText_bare (fun e _ => rfl)] at this
    simpa [Doc.toks] using this

/-! ### Modifiers -/

theorem niceDoc_value {T : Bytes → Prop} {v : Bytes} (h : T v) : NiceDoc T v := .inr ⟨v, padded_self v, h⟩

theorem tidy_call {n a doc : Bytes} (hn : n ∉ [b!"pretty", b!"flatten", b!"join"]) (hd : NiceDoc Tidy doc) :
    ∃ out, Writes n a doc out ∧ NiceDoc Tidy out := by
  by_cases h1 : n = b!"this"
  · subst h1; exact ⟨doc, .this, hd⟩
  by_cases h2 : n = b!"valid"
  · subst h2
    by_cases hj : JsonText doc
    · exact ⟨doc, .valid hj, hd⟩
    · exact ⟨[], .invalid hj, .inl rfl⟩
  by_cases h3 : n = b!"reverse"
  · subst h3
    rcases hd with rfl | ⟨v, hp, hv⟩
    · exact ⟨[], .reverseNone, .inl rfl⟩
    · have hv' := tidy_value hv
      by_cases hc : IsCont v
      · rcases isCont_cases hv' hc with ⟨kvs, ho⟩ | ⟨vs, ha⟩
        · have hm := tidy_object ho hv
          rcases ho with ⟨w, hw, rfl, rfl⟩ | ⟨ms, _, hw, hx, rfl, rfl⟩
          · exact ⟨_, .reverseEmpty hw hp, niceDoc_value (stock_tidy.object (ms := []) (by simp) (by simp))⟩
          · refine ⟨_, .reverseObject hw hx hp, niceDoc_value ?_⟩
            have := stock_tidy.object (ms := ms.reverse.map fun m => ⟨[], m.key, m.mid1, m.mid2, m.val, []⟩) (by
              intro m hm
              obtain ⟨x, hx, rfl⟩ := List.mem_map.1 hm
              have := hw x (List.mem_reverse.1 hx)
              exact ⟨ws_nil, this.2.1, this.2.2.1, this.2.2.2.1, ws_nil⟩) (by
              intro m hm'
              obtain ⟨x, hx, rfl⟩ := List.mem_map.1 hm'
              exact hm (x.key, x.val) (List.mem_map.2 ⟨x, List.mem_reverse.1 hx, rfl⟩))
            rw [commaSep_members, List.map_map] at this
            have e : (Member.text ∘ fun m : Member => (⟨[], m.key, m.mid1, m.mid2, m.val, []⟩ : Member)) = Member.bare := by
              funext m; simp [Member.text, Member.bare]
            rw [e] at this
            exact this
        · refine ⟨_, .reverseArray ha hp, niceDoc_value (stock_array stock_tidy ?_)⟩
          intro r hr
          have := (tidy_array ha hv).2 r (List.mem_reverse.1 hr)
          exact ⟨isValue_ne_nil (tidy_value this), nice_value this⟩
      · unfold IsCont at hc
        rw [not_or] at hc
        exact ⟨v, .reverseScalar hv' hc.1 hc.2 hp, niceDoc_value hv⟩
  by_cases h4 : n = b!"ugly"
  · subst h4
    rcases hd with rfl | ⟨v, hp, hv⟩
    · exact ⟨[], .uglyNone, .inl rfl⟩
    · obtain ⟨w1, w2, g1, g2, e⟩ := id hp
      obtain ⟨d, hd⟩ := denotes_of_value (tidy_value hv)
      refine ⟨_, .ugly ⟨w1, v, w2, e, g1, g2, tidy_value hv⟩, niceDoc_value ?_⟩
      rw [tokens_padded hp hd]
      exact tidy_bare hd
  · refine ⟨[], .unknown ?_, .inl rfl⟩
    unfold modNames
    simp only [List.mem_cons, List.not_mem_nil, or_false, not_or] at hn ⊢
    exact ⟨h1, h2, h3, h4, hn⟩

theorem flat_isArray {t : Bytes} {vs ls : List Bytes} (h : IsArray t vs) (hf : Flattened vs ls) (hc : ∀ v ∈ vs, IsArray v [] → v = b!"[]") :
    IsArray (arrayText (flatPieces vs)) ls := by
  have hd : get [] b!"deep" = .ok Value.default := by decide +kernel
  obtain ⟨out, h1, h2⟩ := modFlatten_shallow h (padded_self t) hf hc hd rfl
  rw [modFlatten_text h (padded_self t) hd rfl] at h1
  cases h1
  exact h2

theorem flat_tidy {vs ls : List Bytes} (hf : Flattened vs ls) (h : ∀ v ∈ vs, Tidy v) : ∀ v ∈ ls, Tidy v := by
  induction hf with
  | nil => simp
  | keep _ _ ih =>
    intro x hx
    rcases List.mem_cons.1 hx with rfl | hx
    · exact h _ (by simp)
    · exact ih (fun y hy => h y (List.mem_cons_of_mem _ hy)) x hx
  | splice ha _ ih =>
    intro x hx
    rcases List.mem_append.1 hx with hx | hx
    · exact (tidy_array ha (h _ (by simp))).2 x hx
    · exact ih (fun y hy => h y (List.mem_cons_of_mem _ hy)) x hx

theorem flat_none {vs : List Bytes} (hf : Flattened vs []) (hc : ∀ v ∈ vs, IsArray v [] → v = b!"[]") : flatPieces vs = [] := by
  generalize hl : ([] : List Bytes) = ls at hf
  induction hf with
  | nil => rfl
  | keep _ _ _ => cases hl
  | @splice v ws r s ha _ ih =>
    obtain ⟨rfl, rfl⟩ := List.append_eq_nil_iff.1 hl.symm
    have := hc v (by simp) ha
    subst this
    exact ih (fun x hx => hc x (List.mem_cons_of_mem _ hx)) rfl

theorem deep_tidy {vs ls : List Bytes} (hf : DeepFlattened vs ls) (h : ∀ v ∈ vs, Tidy v) : ∀ v ∈ ls, Tidy v := by
  induction hf with
  | nil => simp
  | keep _ _ ih =>
    intro x hx
    rcases List.mem_cons.1 hx with rfl | hx
    · exact h _ (by simp)
    · exact ih (fun y hy => h y (List.mem_cons_of_mem _ hy)) x hx
  | splice ha _ _ ih1 ih2 =>
    intro x hx
    rcases List.mem_append.1 hx with hx | hx
    · exact ih1 (tidy_array ha (h _ (by simp))).2 x hx
    · exact ih2 (fun y hy => h y (List.mem_cons_of_mem _ hy)) x hx

theorem objects_tidy {vs : List Bytes} {mss : List (List (Bytes × Bytes))} (ho : ObjectsOf vs mss) (h : ∀ v ∈ vs, Tidy v) :
    ∀ m ∈ mss.flatten, Tidy m.2 := by
  induction ho with
  | nil => simp
  | take ho _ ih =>
    intro m hm
    rw [List.flatten_cons] at hm
    rcases List.mem_append.1 hm with hm | hm
    · exact tidy_object ho (h _ (by simp)) m hm
    · exact ih (fun y hy => h y (List.mem_cons_of_mem _ hy)) m hm
  | skip _ _ ih => exact ih fun y hy => h y (List.mem_cons_of_mem _ hy)

theorem tidy_flatten {a x doc : Bytes} {b : Bool} (hx : Means a b!"deep" x) (ht : Truth x b) (hd : NiceDoc Tidy doc) :
    ∃ out, Writes b!"flatten" a doc out ∧ NiceDoc Tidy out := by
  rcases hd with rfl | ⟨v, hp, hv⟩
  · exact ⟨[], .noneArray (.inl rfl), .inl rfl⟩
  · by_cases hk : kindOf v = .array
    · obtain ⟨vs, ha⟩ := C27_covers v (tidy_value hv) hk
      have he := (tidy_array ha hv).2
      have hc : ∀ x ∈ vs, IsArray x [] → x = b!"[]" := fun x hx h => (tidy_array h (he x hx)).1 rfl
      cases b with
      | false =>
        obtain ⟨ls, hf⟩ := C32_covers vs fun x hx => tidy_value (he x hx)
        refine ⟨_, .flatten ha hp hx ht, niceDoc_value (.array (flat_isArray ha hf hc) ?_ (flat_tidy hf he))⟩
        rintro rfl
        rw [flat_none hf hc]
        rfl
      | true =>
        obtain ⟨ls, hf⟩ := C32_deep_covers vs fun x hx => tidy_value (he x hx)
        refine ⟨_, .flattenDeep ha hp hx ht hf, niceDoc_value (stock_array stock_tidy fun r hr => ?_)⟩
        have := deep_tidy hf he r hr
        exact ⟨isValue_ne_nil (tidy_value this), nice_value this⟩
    · exact ⟨doc, .noArray (.inl rfl) (tidy_value hv) hk hp, .inr ⟨v, hp, hv⟩⟩

theorem tidy_join {a x doc : Bytes} (hx : Means a b!"preserve" x) (ht : Truth x false) (hd : NiceDoc Tidy doc) :
    ∃ out, Writes b!"join" a doc out ∧ NiceDoc Tidy out := by
  rcases hd with rfl | ⟨v, hp, hv⟩
  · exact ⟨[], .noneArray (.inr rfl), .inl rfl⟩
  · by_cases hk : kindOf v = .array
    · obtain ⟨vs, ha⟩ := C27_covers v (tidy_value hv) hk
      have he := (tidy_array ha hv).2
      obtain ⟨d, hd⟩ := denotes_of_value (tidy_value hv)
      obtain ⟨mss, h1, _⟩ := objectsOf_total vs (hasHeight_elem ⟨d, hd, Nat.le_refl _⟩ ha)
      have h2 := objects_tidy h1 he
      have hl := objectsOf_lit h1
      obtain ⟨dec, hdec⟩ := Classical.axiomOfChoice (r := fun kl s => StrLit kl → Content kl s) (by
        intro kl
        by_cases hs : StrLit kl
        · obtain ⟨s, h⟩ := content_total hs
          exact ⟨s, fun _ => h⟩
        · exact ⟨[], fun h => absurd h hs⟩)
      refine ⟨_, .join ha hp hx ht h1 (fun m hm => hdec _ (hl m hm).1), niceDoc_value (stock_object stock_tidy ?_)⟩
      intro m hm
      have := mergeMembers_mem (P := StrLit) (Q := Tidy) (fun m hm => ⟨(hl m hm).1, h2 m hm⟩) m hm
      exact ⟨this.1, isValue_ne_nil (tidy_value this.2), nice_value this.2⟩
    · exact ⟨doc, .noArray (.inr rfl) (tidy_value hv) hk hp, .inr ⟨v, hp, hv⟩⟩

end Gjson
