import Verif.Lemmas.ModsText
import Verif.Lemmas.Examples
import Verif.Props.Format
import Verif.Props.Lookup
/-
C29 (`@reverse`), C32 (`@flatten`) and C33 (`@join`).

`Flattened`, `DeepFlattened`, `ObjectsOf` and `mergeMembers` are defined in
`Verif/SpecMods.lean`.
-/
namespace Gjson
open Spec

theorem isArray_elems {v : Bytes} {vs : List Bytes} (h : IsArray v vs) : ∀ x ∈ vs, IsValue x := by
  rcases h with ⟨w, hw, rfl, rfl⟩ | ⟨es, hne, hwf, hv, rfl, rfl⟩
  · simp
  · intro m hm
    obtain ⟨x, hx, rfl⟩ := List.mem_map.1 hm
    exact hv x hx

theorem SameRes.text {a : Res Value} {r : Value} {out : Bytes} (h : SameRes a (.ok r)) (hr : SameAsText r out) :
    ∃ r', a = .ok r' ∧ SameAsText r' out := by
  cases h with
  | ok h =>
    obtain ⟨h1, h2, w, h3, h4⟩ := hr
    exact ⟨_, rfl, h.json.trans h1, h.kind.trans h2, w, h3, h.trans h4⟩

/-! ### C29 -/

theorem modReverse_object' {t doc : Bytes} {kvs : List (Bytes × Bytes)} (h : IsObject t kvs) (hp : Padded t doc) :
    ∃ out, modReverse doc = .ok out ∧ IsObject out kvs.reverse := by
  obtain ⟨ms, h1, h2, h3⟩ := modReverse_object h hp
  refine ⟨_, h3, ?_⟩
  rw [← List.map_reverse, joinComma_members, ← h2]
  have := isObject_of_members (ms := ms.reverse.map Member.trim)
    (by
      intro e he
      obtain ⟨m, hm, rfl⟩ := List.mem_map.1 he
      have := (h1 m (List.mem_reverse.1 hm)).1
      exact ⟨ws_nil, this.2.1, this.2.2.1, this.2.2.2.1, ws_nil⟩)
    (by
      intro e he
      obtain ⟨m, hm, rfl⟩ := List.mem_map.1 he
      exact (h1 m (List.mem_reverse.1 hm)).2)
  simpa [List.map_map, Function.comp_def, Member.trim] using this

/-- C29: `@reverse` of an array with the elements `vs` is an array with the elements of
`vs` in reverse order. -/
theorem C29_array {t doc : Bytes} {vs : List Bytes} (h : IsArray t vs) (hp : Padded t doc) {a m : Bytes} (hm : ModCall b!"reverse" a m) :
    ∃ r out, get doc m = .ok r ∧ SameAsText r out ∧ IsArray out vs.reverse := by
  have ha : IsArray ([c! '['] ++ joinComma vs.reverse ++ [c! ']']) vs.reverse :=
    isArray_join fun v hv => isArray_elems h v (List.mem_reverse.1 hv)
  obtain ⟨r, h1, h2⟩ := get_mod_exact hm (show modApply get b!"reverse" doc a = .ok _ from modReverse_array h hp) (IsArray.isValue ha)
  exact ⟨r, _, h1, h2, ha⟩

/-- C29: `@reverse` of an object has its members in reverse order. -/
theorem C29_object {t doc : Bytes} {kvs : List (Bytes × Bytes)} (h : IsObject t kvs) (hp : Padded t doc) {a m : Bytes}
    (hm : ModCall b!"reverse" a m) :
    ∃ r out, get doc m = .ok r ∧ SameAsText r out ∧ IsObject out kvs.reverse := by
  obtain ⟨out, h0, ha⟩ := modReverse_object' h hp
  obtain ⟨r, h1, h2⟩ := get_mod_exact hm (show modApply get b!"reverse" doc a = .ok _ from h0) (IsObject.isValue ha)
  exact ⟨r, _, h1, h2, ha⟩

/-- C29: any other value is unchanged. -/
theorem C29_other {t doc : Bytes} (h : IsValue t) (hk : kindOf t ≠ .object ∧ kindOf t ≠ .array) (hp : Padded t doc) {a m : Bytes}
    (hm : ModCall b!"reverse" a m) : ∃ r, get doc m = .ok r ∧ SameAsText r t :=
  get_mod_exact hm (show modApply get b!"reverse" doc a = .ok _ from modReverse_scalar h hk hp) h

/-- C29: reversing an array twice gives the elements in their order. -/
theorem C29_twice_array {t doc : Bytes} {vs : List Bytes} (h : IsArray t vs) (hp : Padded t doc) :
    ∃ r out, get doc b!"@reverse|@reverse" = .ok r ∧ SameAsText r out ∧ IsArray out vs := by
  have hm : ModCall b!"reverse" [] b!"@reverse" := .bare (by decide)
  have ha : IsArray ([c! '['] ++ joinComma vs.reverse ++ [c! ']']) vs.reverse :=
    isArray_join fun v hv => isArray_elems h v (List.mem_reverse.1 hv)
  have h1 := get_mod_pipe hm (show modApply get b!"reverse" doc [] = .ok _ from modReverse_array h hp) (IsArray.isValue ha) b!"@reverse"
  obtain ⟨r, out, h2, h3, h4⟩ := C29_array ha (padded_self _) hm
  rw [List.reverse_reverse] at h4
  rw [h2] at h1
  obtain ⟨r', h5, h6⟩ := SameRes.text h1 h3
  exact ⟨r', out, h5, h6, h4⟩

/-- C29: reversing an object twice gives the members in their order. -/
theorem C29_twice_object {t doc : Bytes} {kvs : List (Bytes × Bytes)} (h : IsObject t kvs) (hp : Padded t doc) :
    ∃ r out, get doc b!"@reverse|@reverse" = .ok r ∧ SameAsText r out ∧ IsObject out kvs := by
  have hm : ModCall b!"reverse" [] b!"@reverse" := .bare (by decide)
  obtain ⟨out, h0, ha⟩ := modReverse_object' h hp
  have h1 := get_mod_pipe hm (show modApply get b!"reverse" doc [] = .ok _ from h0) (IsObject.isValue ha) b!"@reverse"
  obtain ⟨r, out, h2, h3, h4⟩ := C29_object ha (padded_self _) hm
  rw [List.reverse_reverse] at h4
  rw [h2] at h1
  obtain ⟨r', h5, h6⟩ := SameRes.text h1 h3
  exact ⟨r', out, h5, h6, h4⟩

example : IsArray b!"[1,[2],\"a\"]" [b!"1", b!"[2]", b!"\"a\""] :=
  isArray_join (vs := [b!"1", b!"[2]", b!"\"a\""]) (by
    simp only [List.forall_mem_cons]
    exact ⟨value_of_valid (by decide +kernel) (by decide), value_of_valid (by decide +kernel) (by decide),
      value_of_valid (by decide +kernel) (by decide), by simp⟩)
example : modReverse b!" [1, [2], \"a\" ] " = .ok b!"[\"a\",[2],1]" := by decide +kernel
example : modReverse b!"{\"a\" : 1 , \"b\":2}" = .ok b!"{\"b\":2,\"a\" : 1}" := by decide +kernel
example : ModCall b!"reverse" [] b!"@reverse" := .bare (by decide)

/-! ### C32 -/

/-- C32, `@flatten`, with any argument in which `deep` is missing or not true. Missing
from the full claim: arrays which have an element that is an empty array with
whitespace inside, for which it is false (`C32_false`). -/
theorem C32_flatten_partial {t doc : Bytes} {vs ls : List Bytes} (h : IsArray t vs) (hp : Padded t doc) (hf : Flattened vs ls)
    (hc : ∀ v ∈ vs, IsArray v [] → v = b!"[]") {a m : Bytes} (hm : ModCall b!"flatten" a m)
    (hd : ∃ d, get a b!"deep" = .ok d ∧ d.bool = .ok false) :
    ∃ r out, get doc m = .ok r ∧ SameAsText r out ∧ IsArray out ls := by
  obtain ⟨d, hd, hb⟩ := hd
  obtain ⟨out, h0, ha⟩ := modFlatten_shallow h hp hf hc hd hb
  obtain ⟨r, h1, h2⟩ := get_mod_exact hm (show modApply get b!"flatten" doc a = .ok _ from h0) (IsArray.isValue ha)
  exact ⟨r, _, h1, h2, ha⟩

/-- What `@flatten` writes for every array, one level: the elements and the insides of the
elements that are arrays, except empty texts, between commas. An inside of whitespace
stays, which is why the result need not be JSON. -/
theorem C32_exact {t doc : Bytes} {vs : List Bytes} (h : IsArray t vs) (hp : Padded t doc) {a m : Bytes} (hm : ModCall b!"flatten" a m)
    (hd : ∃ d, get a b!"deep" = .ok d ∧ d.bool = .ok false) : ∃ r, get doc m = .ok r ∧ SameAsText r (arrayText (flatPieces vs)) := by
  obtain ⟨d, hd, hb⟩ := hd
  exact get_mod_text hm (.inl rfl) (show modApply get b!"flatten" doc a = .ok _ from modFlatten_text h hp hd hb)

/-- C32 for the bare call. -/
theorem C32_flatten_bare_partial {t doc : Bytes} {vs ls : List Bytes} (h : IsArray t vs) (hp : Padded t doc) (hf : Flattened vs ls)
    (hc : ∀ v ∈ vs, IsArray v [] → v = b!"[]") :
    ∃ r out, get doc b!"@flatten" = .ok r ∧ SameAsText r out ∧ IsArray out ls :=
  C32_flatten_partial h hp hf hc (.bare (by decide)) ⟨Value.default, by decide +kernel, rfl⟩

/-- C32, deep: arrays in arrays are replaced by their elements at every level. -/
theorem C32_deep {t doc : Bytes} {vs ls : List Bytes} (h : IsArray t vs) (hp : Padded t doc) (hf : DeepFlattened vs ls)
    {a m : Bytes} (hm : ModCall b!"flatten" a m) (hd : ∃ d, get a b!"deep" = .ok d ∧ d.bool = .ok true) :
    ∃ r out, get doc m = .ok r ∧ SameAsText r out ∧ IsArray out ls := by
  obtain ⟨d, hd, hb⟩ := hd
  obtain ⟨h0, h1⟩ := modFlattenN_deep hd hb (doc.length + 1) (Nat.lt_succ_self _) h hp hf
  have ha := isArray_join h1
  obtain ⟨r, h1, h2⟩ := get_mod_exact hm (show modApply get b!"flatten" doc a = .ok _ from h0) (IsArray.isValue ha)
  exact ⟨r, _, h1, h2, ha⟩

/-- C32 for the call `@flatten:{"deep":true}`. -/
theorem C32_deep_call {t doc : Bytes} {vs ls : List Bytes} (h : IsArray t vs) (hp : Padded t doc) (hf : DeepFlattened vs ls) :
    ∃ r out, get doc b!"@flatten:{\"deep\":true}" = .ok r ∧ SameAsText r out ∧ IsArray out ls :=
  C32_deep h hp hf (a := b!"{\"deep\":true}") (.json (by decide) (value_of_valid (by decide +kernel) (by decide)) (by decide))
    ⟨_, rfl, by decide +kernel⟩

/-- C32: a value that is not an array is unchanged, whatever the argument. -/
theorem C32_other {t doc : Bytes} (h : IsValue t) (hk : kindOf t ≠ .array) (hp : Padded t doc) {a m : Bytes}
    (hm : ModCall b!"flatten" a m) :
    ∃ p r, parse doc = .ok p ∧ get doc m = .ok r ∧ SameValue r p ∧ r.kind = kindOf t ∧ Padded t r.json :=
  get_mod_value hm (show modApply get b!"flatten" doc a = .ok doc from modFlatten_other h hk hp) h hp

/-- Every list of values can be flattened. -/
theorem C32_covers (vs : List Bytes) (h : ∀ v ∈ vs, IsValue v) : ∃ ls, Flattened vs ls := by
  induction vs with
  | nil => exact ⟨[], .nil⟩
  | cons v r ih =>
    obtain ⟨s, hs⟩ := ih fun x hx => h x (List.mem_cons_of_mem _ hx)
    by_cases hk : kindOf v = .array
    · obtain ⟨ws, hw⟩ := C27_covers v (h v List.mem_cons_self) hk
      exact ⟨_, .splice hw hs⟩
    · exact ⟨_, .keep hk hs⟩

theorem elem_length {t : Bytes} {vs : List Bytes} (h : IsArray t vs) : ∀ v ∈ vs, v.length < t.length := by
  rcases h with ⟨w, hw, rfl, rfl⟩ | ⟨es, hne, hwf, hv, rfl, rfl⟩
  · simp
  · have : ∀ (es : List Elem), ∀ e ∈ es, e.val.length ≤ (elemsText es).length := by
      intro es
      induction es with
      | nil => simp
      | cons e r ih =>
        intro x hx
        have e1 : e.val.length ≤ e.text.length := by simp [Elem.text]; omega
        cases r with
        | nil => simp only [List.mem_singleton] at hx; subst hx; exact e1
        | cons f r =>
          simp only [elemsText, List.length_append, List.length_cons]
          rcases List.mem_cons.1 hx with rfl | hx
          · omega
          · have := ih x hx; omega
    intro m hm
    obtain ⟨x, hx, rfl⟩ := List.mem_map.1 hm
    have := this es x hx
    simp only [List.length_cons, List.length_append]
    omega

/-- Every list of values can be flattened deeply. -/
theorem C32_deep_covers (vs : List Bytes) (h : ∀ v ∈ vs, IsValue v) : ∃ ls, DeepFlattened vs ls := by
  have : ∀ (n : Nat) (vs : List Bytes), (∀ v ∈ vs, IsValue v ∧ v.length < n) → ∃ ls, DeepFlattened vs ls := by
    intro n
    induction n with
    | zero =>
      intro vs h
      cases vs with
      | nil => exact ⟨[], .nil⟩
      | cons v r => exact absurd (h v List.mem_cons_self).2 (by omega)
    | succ n ihn =>
      intro vs
      induction vs with
      | nil => exact fun _ => ⟨[], .nil⟩
      | cons v r ih =>
        intro h
        obtain ⟨s, hs⟩ := ih fun x hx => h x (List.mem_cons_of_mem _ hx)
        by_cases hk : kindOf v = .array
        · obtain ⟨ws, hw⟩ := C27_covers v (h v List.mem_cons_self).1 hk
          have hl := (h v List.mem_cons_self).2
          obtain ⟨ls, hls⟩ := ihn ws fun x hx => ⟨isArray_elems hw x hx, by have := elem_length hw x hx; omega⟩
          exact ⟨_, .splice hw hls hs⟩
        · exact ⟨_, .keep hk hs⟩
  have hmax : ∃ n, ∀ v ∈ vs, v.length < n := by
    clear h
    induction vs with
    | nil => exact ⟨0, by simp⟩
    | cons v r ih =>
      obtain ⟨n, hn⟩ := ih
      refine ⟨n + v.length + 1, fun x hx => ?_⟩
      rcases List.mem_cons.1 hx with rfl | hx
      · omega
      · have := hn x hx; omega
  obtain ⟨n, hn⟩ := hmax
  exact this n vs fun v hv => ⟨h v hv, hn v hv⟩

/-- C32 is false in general: the array `[1,[ ],2]` is turned into `[1, ,2]`, which is
not JSON. -/
theorem C32_false : ∃ (t : Bytes) (vs ls : List Bytes), IsArray t vs ∧ Flattened vs ls ∧
    ∃ r, get t b!"@flatten" = .ok r ∧ r.json = b!"[1, ,2]" ∧ valid r.json = .ok false := by
  refine ⟨b!"[1,[ ],2]", [b!"1", b!"[ ]", b!"2"], [b!"1", b!"2"], ?_, ?_, _, rfl, by decide +kernel, by decide +kernel⟩
  · exact isArray_join (vs := [b!"1", b!"[ ]", b!"2"]) (by
      simp only [List.forall_mem_cons]
      exact ⟨value_of_valid (by decide +kernel) (by decide), value_of_valid (by decide +kernel) (by decide),
        value_of_valid (by decide +kernel) (by decide), by simp⟩)
  · exact .keep (by decide) (.splice (ws := []) (.inl ⟨b!" ", by decide, rfl, rfl⟩) (.keep (by decide) .nil))

example : modFlatten get b!"[1,[2,[3]],[],{}]" [] = .ok b!"[1,2,[3],{}]" := by decide +kernel
example : modFlatten get b!"[1,[2,[3,[ ]]],[],{}]" b!"{\"deep\":true}" = .ok b!"[1,2,3,{}]" := by decide +kernel
example : Flattened [b!"1", b!"[2,[3]]", b!"[]"] [b!"1", b!"2", b!"[3]"] :=
  .keep (by decide) (.splice (ws := [b!"2", b!"[3]"]) (isArray_join (vs := [b!"2", b!"[3]"]) (by
      simp only [List.forall_mem_cons]
      exact ⟨value_of_valid (by decide +kernel) (by decide), value_of_valid (by decide +kernel) (by decide), by simp⟩))
    (.splice (ws := []) (.inl ⟨[], ws_nil, rfl, rfl⟩) .nil))

/-! ### C33 -/

/-- C33: `@join`, with any argument in which `preserve` is missing or not true: the
members of the objects merged, where `dec` is the content of the key literals as the
library decodes them. Elements other than objects are left out. -/
theorem C33_merge {t doc : Bytes} {vs : List Bytes} {mss : List (List (Bytes × Bytes))} (h : IsArray t vs) (hp : Padded t doc)
    (ho : ObjectsOf vs mss) {dec : Bytes → Bytes} (hd : ∀ m ∈ mss.flatten, KeyIs m.1 (dec m.1)) {a m : Bytes} (hm : ModCall b!"join" a m)
    (hpre : ∃ p, get a b!"preserve" = .ok p ∧ p.bool = .ok false) :
    ∃ r out, get doc m = .ok r ∧ SameAsText r out ∧ IsObject out (mergeMembers dec mss.flatten) := by
  obtain ⟨p, hp1, hp2⟩ := hpre
  obtain ⟨out, h0, ha⟩ := modJoin_merge h hp ho hd hp1 hp2
  obtain ⟨r, h1, h2⟩ := get_mod_exact hm (show modApply get b!"join" doc a = .ok _ from h0) (IsObject.isValue ha)
  exact ⟨r, _, h1, h2, ha⟩

/-- C33 for the bare call, with key contents as RFC 8259 decodes them. Missing: keys
written with surrogate pairs of an even supplementary plane, which the library decodes
differently (see `C23_false_even_plane`). -/
theorem C33_merge_partial {t doc : Bytes} {vs : List Bytes} {mss : List (List (Bytes × Bytes))} (h : IsArray t vs) (hp : Padded t doc)
    (ho : ObjectsOf vs mss) {dec : Bytes → Bytes} (hd : ∀ m ∈ mss.flatten, KeyDenotes OddPlane m.1 (dec m.1)) :
    ∃ r out, get doc b!"@join" = .ok r ∧ SameAsText r out ∧ IsObject out (mergeMembers dec mss.flatten) :=
  C33_merge h hp ho (fun m hm => (keyIs_of_denotes (hd m hm)).2 rfl) (.bare (by decide)) ⟨Value.default, by decide +kernel, rfl⟩

theorem distinct_congr {s s' : List Bytes} (h : ∀ k, k ∈ s ↔ k ∈ s') (l : List Bytes) : distinct s l = distinct s' l := by
  induction l generalizing s s' with
  | nil => rfl
  | cons k r ih =>
    unfold distinct
    by_cases hk : k ∈ s
    · rw [if_pos hk, if_pos ((h k).1 hk), ih h]
    · rw [if_neg hk, if_neg fun hs => hk ((h k).2 hs), ih (s := k :: s) (s' := k :: s') fun x => by simp [h x]]

theorem putMember_keys (dec : Bytes → Bytes) (m : Bytes × Bytes) (acc : List (Bytes × Bytes)) :
    (putMember dec m acc).map (fun x => dec x.1) =
      if dec m.1 ∈ acc.map (fun x => dec x.1) then acc.map (fun x => dec x.1) else acc.map (fun x => dec x.1) ++ [dec m.1] := by
  induction acc with
  | nil => rfl
  | cons n r ih =>
    unfold putMember
    by_cases h : dec n.1 = dec m.1
    · simp [h]
    · simp only [if_neg h, List.map_cons, ih, List.mem_cons]
      have : ¬ dec m.1 = dec n.1 := fun e => h e.symm
      simp only [this, false_or]
      split <;> simp

theorem putMember_find (dec : Bytes → Bytes) (m : Bytes × Bytes) (acc : List (Bytes × Bytes)) (k : Bytes) :
    (putMember dec m acc).find? (fun x => dec x.1 = k) =
      if k = dec m.1 then some (((acc.find? (fun x => dec x.1 = k)).getD m).1, m.2) else acc.find? (fun x => dec x.1 = k) := by
  induction acc with
  | nil =>
    by_cases h : k = dec m.1
    · simp [putMember, h]
    · have : ¬ dec m.1 = k := fun e => h e.symm
      simp [putMember, h, this]
  | cons n r ih =>
    unfold putMember
    by_cases h : dec n.1 = dec m.1
    · by_cases hk : k = dec m.1
      · subst hk; simp [h]
      · have : ¬ dec m.1 = k := fun e => hk e.symm
        simp [h, this, hk]
    · rw [if_neg h, List.find?_cons, ih, List.find?_cons]
      by_cases hk : dec n.1 = k
      · have : ¬ k = dec m.1 := by rw [← hk]; exact h
        simp [hk, this]
      · simp [hk]

/-- What `mergeMembers` gives: the key contents are the distinct key contents of `ms` in
the order of their first appearance, and for each of them the member has the key literal
of the first and the value of the last member of `ms` with that key content. -/
theorem C33_meaning (dec : Bytes → Bytes) (ms : List (Bytes × Bytes)) :
    (mergeMembers dec ms).map (fun x => dec x.1) = distinct [] (ms.map fun x => dec x.1) ∧
    ∀ m ∈ mergeMembers dec ms, (ms.find? fun x => dec x.1 = dec m.1).map Prod.fst = some m.1 ∧
      (ms.reverse.find? fun x => dec x.1 = dec m.1).map Prod.snd = some m.2 := by
  have key : ∀ (l acc : List (Bytes × Bytes)),
      (l.foldl (fun acc m => putMember dec m acc) acc).map (fun x => dec x.1) =
        acc.map (fun x => dec x.1) ++ distinct (acc.map fun x => dec x.1) (l.map fun x => dec x.1) := by
    intro l
    induction l with
    | nil => intro acc; simp [distinct]
    | cons m l ih =>
      intro acc
      rw [List.foldl_cons, ih, putMember_keys]
      simp only [List.map_cons, distinct]
      split
      · rfl
      · rw [List.append_assoc]
        congr 1
        rw [distinct_congr (s' := dec m.1 :: acc.map fun x => dec x.1) (by simp [or_comm])]
        rfl
  have fnd : ∀ (l acc : List (Bytes × Bytes)) (k : Bytes),
      ((l.foldl (fun acc m => putMember dec m acc) acc).find? fun x => dec x.1 = k) =
        (match (acc ++ l).find? (fun x => dec x.1 = k), (l.reverse.find? fun x => dec x.1 = k) with
          | some f, some g => some (f.1, g.2)
          | _, none => acc.find? (fun x => dec x.1 = k)
          | none, _ => none) := by
    intro l
    induction l with
    | nil => intro acc k; simp
    | cons m l ih =>
      intro acc k
      rw [List.foldl_cons, ih, List.reverse_cons, List.find?_append (xs := l.reverse), List.find?_append, List.find?_append, putMember_find]
      by_cases hk : k = dec m.1
      · subst hk
        cases h1 : acc.find? (fun x => decide (dec x.1 = dec m.1)) <;> cases h2 : l.reverse.find? (fun x => decide (dec x.1 = dec m.1)) <;>
          simp
      · have : ¬ dec m.1 = k := fun e => hk e.symm
        cases h1 : acc.find? (fun x => decide (dec x.1 = k)) <;> cases h2 : l.reverse.find? (fun x => decide (dec x.1 = k)) <;>
          simp [this, hk]
  refine ⟨by simpa [mergeMembers] using key ms [], fun m hm => ?_⟩
  have hf := fnd ms [] (dec m.1)
  have hnd := mergeMembers_nodup dec ms
  have hself : (mergeMembers dec ms).find? (fun x => dec x.1 = dec m.1) = some m := by
    clear hf
    generalize mergeMembers dec ms = l at hm hnd
    induction l with
    | nil => simp at hm
    | cons n r ih =>
      rcases List.mem_cons.1 hm with rfl | hm
      · simp
      · have := (List.pairwise_cons.1 hnd).1 m hm
        rw [List.find?_cons]
        simp only [this, decide_false]
        exact ih hm (List.pairwise_cons.1 hnd).2
  have hself' : (ms.foldl (fun acc m => putMember dec m acc) []).find? (fun x => decide (dec x.1 = dec m.1)) = some m := hself
  rw [hself'] at hf
  simp only [List.nil_append, List.find?_nil] at hf
  split at hf
  · rename_i f g h1 h2
    rw [h1, h2]
    rw [Option.some.inj hf]
    exact ⟨rfl, rfl⟩
  · cases hf
  · cases hf

/-- C33 with `preserve`: all members of all objects, in order. Missing from the full
claim: arrays in which one of the objects is empty, for which it is false
(`C33_false`). -/
theorem C33_preserve_partial {t doc : Bytes} {vs : List Bytes} {mss : List (List (Bytes × Bytes))} (h : IsArray t vs) (hp : Padded t doc)
    (ho : ObjectsOf vs mss) (hne : [] ∉ mss) {a m : Bytes} (hm : ModCall b!"join" a m)
    (hpre : ∃ p, get a b!"preserve" = .ok p ∧ p.bool = .ok true) :
    ∃ r out, get doc m = .ok r ∧ SameAsText r out ∧ IsObject out mss.flatten := by
  obtain ⟨p, hp1, hp2⟩ := hpre
  obtain ⟨out, h0, ha⟩ := modJoin_preserve h hp ho hne hp1 hp2
  obtain ⟨r, h1, h2⟩ := get_mod_exact hm (show modApply get b!"join" doc a = .ok _ from h0) (IsObject.isValue ha)
  exact ⟨r, _, h1, h2, ha⟩

/-- What `@join` with `preserve` writes for every array: the insides of the elements that
are objects, between commas, also the empty ones. -/
theorem C33_preserve_exact {t doc : Bytes} {vs : List Bytes} (h : IsArray t vs) (hp : Padded t doc) {a m : Bytes} (hm : ModCall b!"join" a m)
    (hd : ∃ d, get a b!"preserve" = .ok d ∧ d.bool = .ok true) :
    ∃ r, get doc m = .ok r ∧ SameAsText r (b!"{" ++ commaSep (keptPieces vs) ++ b!"}") := by
  obtain ⟨d, hd, hb⟩ := hd
  have := modJoin_text h hp hd hb
  exact get_mod_text hm (.inr rfl) (show modApply get b!"join" doc a = .ok _ from this)

/-- C33 for the call `@join:{"preserve":true}`; the same part is missing. -/
theorem C33_preserve_call_partial {t doc : Bytes} {vs : List Bytes} {mss : List (List (Bytes × Bytes))} (h : IsArray t vs) (hp : Padded t doc)
    (ho : ObjectsOf vs mss) (hne : [] ∉ mss) :
    ∃ r out, get doc b!"@join:{\"preserve\":true}" = .ok r ∧ SameAsText r out ∧ IsObject out mss.flatten :=
  C33_preserve_partial h hp ho hne (a := b!"{\"preserve\":true}")
    (.json (by decide) (value_of_valid (by decide +kernel) (by decide)) (by decide)) ⟨_, rfl, by decide +kernel⟩

/-- Every list of values has a list of its objects. -/
theorem C33_covers (vs : List Bytes) (h : ∀ v ∈ vs, IsValue v) : ∃ mss, ObjectsOf vs mss := by
  induction vs with
  | nil => exact ⟨[], .nil⟩
  | cons v r ih =>
    obtain ⟨s, hs⟩ := ih fun x hx => h x (List.mem_cons_of_mem _ hx)
    by_cases hk : kindOf v = .object
    · obtain ⟨ws, hw⟩ := C28_covers v (h v List.mem_cons_self) hk
      exact ⟨_, .take hw hs⟩
    · exact ⟨_, .skip hk hs⟩

/-- A value that is not an array is unchanged, whatever the argument. -/
theorem C33_other {t doc : Bytes} (h : IsValue t) (hk : kindOf t ≠ .array) (hp : Padded t doc) {a m : Bytes}
    (hm : ModCall b!"join" a m) :
    ∃ p r, parse doc = .ok p ∧ get doc m = .ok r ∧ SameValue r p ∧ r.kind = kindOf t ∧ Padded t r.json :=
  get_mod_value hm (show modApply get b!"join" doc a = .ok doc from modJoin_other h hk hp) h hp

/-- C33 is false with `preserve` and an empty object: `[{"a":1},{},{"b":2}]` is turned
into `{"a":1,,"b":2}`, which is not JSON. -/
theorem C33_false : ∃ (t : Bytes) (vs : List Bytes), IsArray t vs ∧ (∀ v ∈ vs, IsValue v ∧ kindOf v = .object) ∧
    ∃ r, get t b!"@join:{\"preserve\":true}" = .ok r ∧ r.json = b!"{\"a\":1,,\"b\":2}" ∧ valid r.json = .ok false := by
  have hv : ∀ v ∈ [b!"{\"a\":1}", b!"{}", b!"{\"b\":2}"], IsValue v := by
    simp only [List.forall_mem_cons]
    exact ⟨value_of_valid (by decide +kernel) (by decide), value_of_valid (by decide +kernel) (by decide),
      value_of_valid (by decide +kernel) (by decide), by simp⟩
  exact ⟨b!"[{\"a\":1},{},{\"b\":2}]", [b!"{\"a\":1}", b!"{}", b!"{\"b\":2}"], isArray_join hv,
    fun v h => ⟨hv v h, by revert v; decide⟩, _, rfl, by decide +kernel, by decide +kernel⟩

example : modJoin get b!"[{\"a\":1,\"b\":2},7,{},{\"\\u0061\":3,\"c\":4}]" [] = .ok b!"{\"a\":3,\"b\":2,\"c\":4}" := by decide +kernel
example : modJoin get b!"[{\"a\":1 , \"b\":2},7,{\"a\":3}]" b!"{\"preserve\":true}" = .ok b!"{\"a\":1 , \"b\":2,\"a\":3}" := by decide +kernel
example : KeyDenotes OddPlane b!"\"\\u0061\"" b!"a" := by
  exact ⟨b!"\\u0061", rfl, Decodes.bmp (t := []) (by decide) (by decide) (by decide) (by decide) (by decide) .nil⟩

/-- The pieces, with an inside of whitespace and one that is empty. -/
example : flatPieces [b!"1", b!"[ ]", b!"[]", b!"[2, [3]]", b!"{\"a\":[4]}"] = [b!"1", b!" ", b!"2, [3]", b!"{\"a\":[4]}"] := by decide
example : modFlatten get b!"[1,[ ],[],[2, [3]],{\"a\":[4]}]" [] = .ok b!"[1, ,2, [3],{\"a\":[4]}]" := by decide +kernel
example : keptPieces [b!"{\"a\":1}", b!"{ }", b!"7", b!"{\"b\":2 }"] = [b!"\"a\":1", b!" ", b!"\"b\":2 "] := by decide

end Gjson
