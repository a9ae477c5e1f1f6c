import Verif.Lemmas.Utf8
import Verif.Lemmas.Total
import Verif.Props.Format
import Verif.Props.Modifiers
import Verif.Props.Multi
/-
What the modifiers keep: JSON texts stay JSON texts, UTF-8 stays UTF-8.
-/
namespace Gjson
open Spec

theorem utf8_ws {w : Bytes} (h : Ws w) : IsUtf8 w :=
  ascii_utf8 fun c hc => by have := h c hc; unfold IsWs at this; grind

/-- UTF-8 can be put together and cut next to ASCII bytes. -/
theorem utf8_edge {a b : Bytes} (he : Edge a b) : IsUtf8 (a ++ b) ↔ IsUtf8 a ∧ IsUtf8 b :=
  ⟨fun h => h.split he, fun h => h.1.append h.2⟩

theorem utf8_cons {c : UInt8} {r : Bytes} (hc : c < 0x80) : IsUtf8 (c :: r) ↔ IsUtf8 r :=
  ⟨fun h => h.tail_ascii hc, fun h => (IsUtf8.ascii hc).append h⟩

theorem utf8_pre_ws {w r : Bytes} (h : Ws w) : IsUtf8 (w ++ r) ↔ IsUtf8 r := by
  induction w with
  | nil => rfl
  | cons c w ih =>
    have hc : c < 0x80 := by have := h c (by simp); unfold IsWs at this; grind
    rw [List.cons_append, utf8_cons hc, ih fun x hx => h x (by simp [hx])]

theorem utf8_pre_value {v r : Bytes} (h : IsValue v) : IsUtf8 (v ++ r) ↔ IsUtf8 v ∧ IsUtf8 r :=
  utf8_edge (.inl (isValue_last h))

theorem utf8_elem {e : Elem} (hw : e.Wf) (hv : IsValue e.val) (r : Bytes) :
    IsUtf8 (e.text ++ r) ↔ IsUtf8 e.val ∧ IsUtf8 r := by
  unfold Elem.text
  rw [List.append_assoc, utf8_pre_ws hw.1, List.append_assoc, utf8_pre_value hv, utf8_pre_ws hw.2]

theorem utf8_elems : ∀ {es : List Elem}, (∀ e ∈ es, e.Wf) → (∀ e ∈ es, IsValue e.val) → ∀ {c : UInt8} {r : Bytes}, c < 0x80 →
    (IsUtf8 (elemsText es ++ c :: r) ↔ (∀ e ∈ es, IsUtf8 e.val) ∧ IsUtf8 r)
  | [], _, _, c, r, hc => by simp [elemsText, utf8_cons hc]
  | [e], hw, hv, c, r, hc => by
    simp only [elemsText]
    rw [utf8_elem (hw e (by simp)) (hv e (by simp)), utf8_cons hc]
    simp
  | e :: f :: es, hw, hv, c, r, hc => by
    have ih := utf8_elems (es := f :: es) (fun x hx => hw x (by simp [hx])) (fun x hx => hv x (by simp [hx])) (r := r) hc
    simp only [elemsText, List.append_assoc, List.cons_append] at ih ⊢
    rw [utf8_elem (hw e (by simp)) (hv e (by simp)), utf8_cons (by decide), ih]
    simp [and_assoc]

theorem utf8_member {m : Member} (hw : m.Wf) (hv : IsValue m.val) (r : Bytes) :
    IsUtf8 (m.text ++ r) ↔ (IsUtf8 m.key ∧ IsUtf8 m.val) ∧ IsUtf8 r := by
  obtain ⟨h1, h2, h3, h4, h5⟩ := hw
  unfold Member.text
  simp only [List.append_assoc, List.cons_append]
  rw [utf8_pre_ws h1, utf8_pre_value (.str h2), utf8_pre_ws h3, utf8_cons (by decide), utf8_pre_ws h4, utf8_pre_value hv,
    utf8_pre_ws h5, and_assoc]

theorem utf8_members : ∀ {ms : List Member}, (∀ e ∈ ms, e.Wf) → (∀ e ∈ ms, IsValue e.val) → ∀ {c : UInt8} {r : Bytes}, c < 0x80 →
    (IsUtf8 (membersText ms ++ c :: r) ↔ (∀ e ∈ ms, IsUtf8 e.key ∧ IsUtf8 e.val) ∧ IsUtf8 r)
  | [], _, _, c, r, hc => by simp [membersText, utf8_cons hc]
  | [e], hw, hv, c, r, hc => by
    simp only [membersText]
    rw [utf8_member (hw e (by simp)) (hv e (by simp)), utf8_cons hc]
    simp
  | e :: f :: es, hw, hv, c, r, hc => by
    have ih := utf8_members (ms := f :: es) (fun x hx => hw x (by simp [hx])) (fun x hx => hv x (by simp [hx])) (r := r) hc
    simp only [membersText, List.append_assoc, List.cons_append] at ih ⊢
    rw [utf8_member (hw e (by simp)) (hv e (by simp)), utf8_cons (by decide), ih]
    simp only [List.forall_mem_cons, and_assoc]

theorem utf8_isArray {t : Bytes} {vs : List Bytes} (h : IsArray t vs) : IsUtf8 t ↔ ∀ v ∈ vs, IsUtf8 v := by
  rcases h with ⟨w, hw, rfl, rfl⟩ | ⟨es, hne, hwf, hv, rfl, rfl⟩
  · rw [utf8_cons (by decide), utf8_pre_ws hw]
    simp [IsUtf8.ascii (x := c! ']') (by decide)]
  · rw [utf8_cons (by decide), utf8_elems hwf hv (by decide)]
    simp [IsUtf8.nil]

theorem utf8_isObject {t : Bytes} {kvs : List (Bytes × Bytes)} (h : IsObject t kvs) :
    IsUtf8 t ↔ ∀ m ∈ kvs, IsUtf8 m.1 ∧ IsUtf8 m.2 := by
  rcases h with ⟨w, hw, rfl, rfl⟩ | ⟨ms, hne, hwf, hv, rfl, rfl⟩
  · rw [utf8_cons (by decide), utf8_pre_ws hw]
    simp [IsUtf8.ascii (x := c! '}') (by decide)]
  · rw [utf8_cons (by decide), utf8_members hwf hv (by decide)]
    simp only [IsUtf8.nil, and_true, List.forall_mem_map]

theorem utf8_padded {t doc : Bytes} (h : Padded t doc) (hv : IsValue t) : IsUtf8 doc ↔ IsUtf8 t := by
  obtain ⟨w1, w2, h1, h2, rfl⟩ := h
  rw [utf8_pre_ws h1, utf8_pre_value hv]
  exact ⟨fun h => h.1, fun h => ⟨h, utf8_ws h2⟩⟩

mutual
/-- All strings, numbers and keys of a document are UTF-8. -/
def utf8Doc : Doc → Prop
  | .leaf t => IsUtf8 t
  | .arr es => utf8Docs es
  | .obj ms => utf8Mems ms
/-- The same for the elements of an array. -/
def utf8Docs : List Doc → Prop
  | [] => True
  | d :: r => utf8Doc d ∧ utf8Docs r
/-- The same for the members of an object. -/
def utf8Mems : List (Bytes × Doc) → Prop
  | [] => True
  | (k, d) :: r => (IsUtf8 k ∧ utf8Doc d) ∧ utf8Mems r
end

theorem utf8Docs_iff : ∀ ds : List Doc, utf8Docs ds ↔ ∀ d ∈ ds, utf8Doc d
  | [] => by simp [utf8Docs]
  | d :: r => by rw [utf8Docs, utf8Docs_iff r, List.forall_mem_cons]

theorem utf8Mems_iff : ∀ ms : List (Bytes × Doc), utf8Mems ms ↔ ∀ m ∈ ms, IsUtf8 m.1 ∧ utf8Doc m.2
  | [] => by simp [utf8Mems]
  | (k, d) :: r => by rw [utf8Mems, utf8Mems_iff r, List.forall_mem_cons]

/-- Whether a value is UTF-8 depends only on its document. -/
theorem utf8_denotes {v : Bytes} {d : Doc} (h : Denotes v d) : IsUtf8 v ↔ utf8Doc d := by
  induction h with
  | leaf _ _ _ => rfl
  | arrEmpty hw =>
    rw [utf8_isArray (.inl ⟨_, hw, rfl, rfl⟩)]
    simp [utf8Doc, utf8Docs]
  | @arr es hne hw hd ih =>
    rw [utf8_isArray (.inr ⟨es.map Prod.fst, by simpa using hne, by simpa using fun a b h => hw (a, b) h,
      by simpa using fun a b h => value_of_denotes (hd (a, b) h), rfl, rfl⟩)]
    rw [utf8Doc, utf8Docs_iff]
    simp only [List.map_map, List.forall_mem_map, Function.comp]
    exact ⟨fun h e he => (ih e he).1 (h e he), fun h e he => (ih e he).2 (h e he)⟩
  | objEmpty hw =>
    rw [utf8_isObject (.inl ⟨_, hw, rfl, rfl⟩)]
    simp [utf8Doc, utf8Mems]
  | @obj ms hne hw hd ih =>
    rw [utf8_isObject (.inr ⟨ms.map Prod.fst, by simpa using hne, by simpa using fun a b h => hw (a, b) h,
      by simpa using fun a b h => value_of_denotes (hd (a, b) h), rfl, rfl⟩)]
    rw [utf8Doc, utf8Mems_iff]
    simp only [List.map_map, List.forall_mem_map, Function.comp]
    exact ⟨fun h e he => ⟨(h e he).1, (ih e he).1 (h e he).2⟩, fun h e he => ⟨(h e he).1, (ih e he).2 (h e he).2⟩⟩

/-- Two texts of one document. -/
theorem utf8_same_doc {v u : Bytes} {d : Doc} (h : Denotes v d) (h' : Denotes u d) (hv : IsUtf8 v) : IsUtf8 u :=
  (utf8_denotes h').2 ((utf8_denotes h).1 hv)

theorem utf8Mems_insert (a : Bytes × Doc) : ∀ ms : List (Bytes × Doc), utf8Mems (insertMember a ms) ↔ (IsUtf8 a.1 ∧ utf8Doc a.2) ∧ utf8Mems ms
  | [] => by rw [insertMember]; rfl
  | b :: r => by
    rw [insertMember]
    split
    · rw [utf8Mems]
    · rw [utf8Mems, utf8Mems_insert a r, utf8Mems]
      exact ⟨fun h => ⟨h.2.1, h.1, h.2.2⟩, fun h => ⟨h.2.1, h.1, h.2.2⟩⟩

theorem utf8Mems_sort : ∀ ms : List (Bytes × Doc), utf8Mems (sortMembers ms) ↔ utf8Mems ms
  | [] => Iff.rfl
  | a :: r => by rw [sortMembers, utf8Mems_insert, utf8Mems_sort r, utf8Mems]

mutual
/-- Sorting keeps UTF-8. -/
theorem utf8_sort : ∀ d : Doc, utf8Doc d.sort ↔ utf8Doc d
  | .leaf t => Iff.rfl
  | .arr es => by rw [Doc.sort, utf8Doc, utf8Doc, utf8_sortElems es]
  | .obj ms => by rw [Doc.sort, utf8Doc, utf8Doc, utf8Mems_sort, utf8_sortVals ms]
theorem utf8_sortElems : ∀ es : List Doc, utf8Docs (sortElems es) ↔ utf8Docs es
  | [] => Iff.rfl
  | d :: r => by rw [sortElems, utf8Docs, utf8Docs, utf8_sort d, utf8_sortElems r]
theorem utf8_sortVals : ∀ ms : List (Bytes × Doc), utf8Mems (sortVals ms) ↔ utf8Mems ms
  | [] => Iff.rfl
  | (k, d) :: r => by rw [sortVals, utf8Mems, utf8Mems, utf8_sort d, utf8_sortVals r]
end

/-- A JSON text that is UTF-8 if `U`. -/
def JsonU (U : Prop) (t : Bytes) : Prop := JsonText t ∧ (U → IsUtf8 t)

theorem jsonU_value {U : Prop} {v : Bytes} (h : IsValue v) (hu : U → IsUtf8 v) : JsonU U v :=
  ⟨⟨[], v, [], by simp, ws_nil, ws_nil, h⟩, hu⟩

theorem modReverse_keeps {U : Prop} {j : Bytes} (h : JsonU U j) : ∃ out, modReverse j = .ok out ∧ JsonU U out := by
  obtain ⟨⟨w1, v, w2, rfl, h1, h2, hv⟩, hu⟩ := h
  have hp : Padded v (w1 ++ (v ++ w2)) := ⟨w1, w2, h1, h2, rfl⟩
  rw [utf8_padded hp hv] at hu
  by_cases hk1 : kindOf v = .array
  · obtain ⟨vs, hvs⟩ := C27_covers v hv hk1
    have ha : IsArray ([c! '['] ++ joinComma vs.reverse ++ [c! ']']) vs.reverse :=
      isArray_join fun v hv => isArray_elems hvs v (List.mem_reverse.1 hv)
    refine ⟨_, modReverse_array hvs hp, jsonU_value (IsArray.isValue ha) fun hU => ?_⟩
    rw [utf8_isArray ha]
    intro x hx
    exact (utf8_isArray hvs).1 (hu hU) x (List.mem_reverse.1 hx)
  by_cases hk2 : kindOf v = .object
  · obtain ⟨kvs, hvs⟩ := C28_covers v hv hk2
    obtain ⟨out, ho, ha⟩ := modReverse_object' hvs hp
    refine ⟨_, ho, jsonU_value (IsObject.isValue ha) fun hU => ?_⟩
    rw [utf8_isObject ha]
    intro x hx
    exact (utf8_isObject hvs).1 (hu hU) x (List.mem_reverse.1 hx)
  · exact ⟨_, modReverse_scalar hv ⟨hk2, hk1⟩ hp, jsonU_value hv hu⟩

theorem modUgly_keeps {U : Prop} {j : Bytes} (h : JsonU U j) : ∃ out, modUgly j = .ok out ∧ JsonU U out := by
  obtain ⟨v, d, hp, hd⟩ := jsonText_doc h.1
  obtain ⟨out, ho, hd'⟩ := C30_document hp hd
  refine ⟨out, ho, jsonU_value (value_of_denotes hd') fun hU => utf8_same_doc hd hd' ?_⟩
  exact (utf8_padded hp (value_of_denotes hd)).1 (h.2 hU)

theorem pretty_keeps {U : Prop} {j : Bytes} (h : JsonU U j) {o : PrettyOptions} (hpfx : Ws o.pfx)
    (hind : Ws o.indent) : ∃ out, prettyOptions j o = .ok out ∧ JsonU U out := by
  obtain ⟨v, d, hp, hd⟩ := jsonText_doc h.1
  obtain ⟨out, v', d', ho, hp', hd', hdd⟩ : ∃ out v' d', prettyOptions j o = .ok out ∧ Padded v' out ∧ Denotes v' d' ∧ (utf8Doc d → utf8Doc d') := by
    cases hsort : o.sortKeys with
    | false =>
      obtain ⟨out, v', ho, hp', hd'⟩ := C31_document hp hd hpfx hind hsort
      exact ⟨out, v', d, ho, hp', hd', id⟩
    | true =>
      obtain ⟨out, v', ho, hp', hd'⟩ := C38_exact hp hd hpfx hind hsort
      refine ⟨out, v', _, ho, hp', hd', fun hu => ?_⟩
      rw [← utf8_sort, sort_sortLim, utf8_sort]
      exact hu
  refine ⟨out, ho, ?_, fun hU => ?_⟩
  · obtain ⟨w1, w2, h1, h2, rfl⟩ := hp'
    exact ⟨w1, v', w2, rfl, h1, h2, value_of_denotes hd'⟩
  · exact (utf8_padded hp' (value_of_denotes hd')).2 ((utf8_denotes hd').2 (hdd ((utf8_denotes hd).1 ((utf8_padded hp (value_of_denotes hd)).1 (h.2 hU)))))

theorem Spec.Tame.infix {p q : Bytes} (h : Tame p) (hq : q <:+: p) : Tame q :=
  ⟨fun hi => h.1 (hi.trans hq), fun hi => h.2.1 (hi.trans hq), fun hi => h.2.2 (hi.mono hq)⟩

/-- Without the members `indent` and `prefix` in its argument, `@pretty` inserts whitespace only. -/
theorem modPretty_plain {json arg out : Bytes} (hb : c! '\\' ∉ arg) (hi : ¬ b!"\"indent\"" <:+: arg)
    (hx : ¬ b!"\"prefix\"" <:+: arg) (h : modPretty get json arg = .ok out) :
    ∃ o, prettyOptions json o = .ok out ∧ o.pfx = [] ∧ Ws o.indent := by
  unfold modPretty at h
  split at h
  · rw [get_absent (name := b!"indent") (by decide) hb hi, get_absent (name := b!"prefix") (by decide) hb hx] at h
    simp only [ok_bind] at h
    obtain ⟨vs, _, h⟩ := bind_eq_ok.1 h
    obtain ⟨vw, _, h⟩ := bind_eq_ok.1 h
    obtain ⟨o1, e1, h⟩ := bind_eq_ok.1 h
    obtain ⟨o2, e2, h⟩ := bind_eq_ok.1 h
    obtain ⟨o3, e3, h⟩ := bind_eq_ok.1 h
    obtain ⟨o4, e4, h⟩ := bind_eq_ok.1 h
    have p1 : o1.pfx = [] ∧ Ws o1.indent := by
      unfold optIndent at e1
      rw [if_neg (by decide)] at e1
      cases e1; exact ⟨rfl, by decide⟩
    have p2 : o2.pfx = [] ∧ Ws o2.indent := by
      unfold optPrefix at e2
      rw [if_neg (by decide)] at e2
      cases e2; exact p1
    have p3 : o3.pfx = [] ∧ Ws o3.indent := by
      unfold optSortKeys at e3
      split at e3
      · obtain ⟨s, _, e⟩ := bind_eq_ok.1 e3; cases e; exact p2
      · cases e3; exact p2
    obtain ⟨w1, w2, _⟩ := optWidth_fields e4
    rw [← w1, ← w2] at p3
    exact ⟨o4, h, p3⟩
  · exact ⟨PrettyOptions.default, by unfold pretty at h; exact h, rfl, by decide⟩

theorem mod_keeps {U : Prop} {path j out : Bytes} (ht : Tame path) (hm : (pNext path).isModifier = true)
    (h : j = [] ∨ JsonU U j) (ho : modApply get (modName (pNext path)) j (modArg (pNext path)) = .ok out) : out = [] ∨ JsonU U out := by
  have hn := (modName_infix hm).trans (pNext_ok path).comp.isInfix
  unfold modApply at ho
  split at ho
  · cases ho; exact h
  split at ho
  · rcases h with rfl | h
    · left
      have : modReverse [] = .ok [] := by decide +kernel
      rw [this] at ho; cases ho; rfl
    · obtain ⟨o, h1, h2⟩ := modReverse_keeps h
      rw [h1] at ho; cases ho; exact .inr h2
  split at ho
  · rcases h with rfl | h
    · left
      have : modUgly [] = .ok [] := by decide +kernel
      rw [this] at ho; cases ho; rfl
    · obtain ⟨o, h1, h2⟩ := modUgly_keeps h
      rw [h1] at ho; cases ho; exact .inr h2
  split at ho
  · rename_i hname
    have hb : ∀ w ∈ [b!"\"indent\"", b!"\"prefix\"", b!"\\"], ¬ w <:+: modArg (pNext path) := by
      intro w hw ⟨x, y, hxy⟩
      rcases modArg_infix (pNext_ok path) hm with h5 | h5
      · rw [h5] at hxy
        simp at hw
        rcases hw with rfl | rfl | rfl <;> simp at hxy
      · rw [hname] at h5
        refine ht.2.2 (InOrder.mono (h5.trans (pNext_ok path).comp.isInfix) ⟨[], b!"@pretty:", _, by simp, rfl, x, w, y, hw, ?_, trivial⟩)
        show modArg (pNext path) = _
        rw [← hxy, List.append_assoc]
    have hs : c! '\\' ∉ modArg (pNext path) := by
      intro hm
      obtain ⟨x, y, hxy⟩ := List.append_of_mem hm
      exact hb b!"\\" (by simp) ⟨x, y, by rw [hxy]; simp⟩
    obtain ⟨o, h1, h2, h3⟩ := modPretty_plain hs (hb _ (by simp)) (hb _ (by simp)) ho
    rcases h with rfl | h
    · left
      unfold prettyOptions prettyAny prettyAnyLoop at h1
      rw [h2] at h1
      simpa using h1.symm
    · obtain ⟨o', h4, h5⟩ := pretty_keeps h (by rw [h2]; exact ws_nil) h3
      rw [h1] at h4; cases h4; exact .inr h5
  split at ho
  · unfold modValid at ho
    obtain ⟨b, _, ho⟩ := bind_eq_ok.1 ho
    cases b with
    | true => cases ho; exact h
    | false => cases ho; exact .inl rfl
  split at ho
  · rename_i hname
    rw [hname] at hn
    exact absurd hn ht.1
  split at ho
  · rename_i hname
    rw [hname] at hn
    exact absurd hn ht.2.1
  · cases ho; exact .inl rfl

theorem pParse_lead {U : Prop} {out : Bytes} (h : JsonU U out) : Lead (pParse 0 out).json ∧ (U → IsUtf8 (pParse 0 out).json) := by
  obtain ⟨⟨w1, v, w2, rfl, h1, h2, hv⟩, hu⟩ := h
  rw [pParse_ws h1]
  rw [utf8_pre_ws h1] at hu
  by_cases hk : kindOf v = .object ∨ kindOf v = .array
  · rw [(pParse_cont hv hk _).1, mkVal_json]
    exact ⟨.inr ⟨v, w2, rfl, hv, h2, hk⟩, hu⟩
  · rw [not_or] at hk
    rw [pParse_scalar hv (Follow.ws' h2) hk, leafVal_json]
    exact ⟨.inl hv, fun hU => ((utf8_pre_value hv).1 (hu hU)).1⟩

end Gjson
