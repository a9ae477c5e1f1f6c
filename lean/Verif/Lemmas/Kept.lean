import Verif.Lemmas.Keep
import Verif.Props.Strings
/-
Instances of `Inv`: results are JSON, and UTF-8.
-/
namespace Gjson
open Spec

theorem lead_split {t : Bytes} (h : Lead t) : ∃ u w, t = u ++ w ∧ IsValue u ∧ Ws w := by
  rcases h with h | ⟨u, w, rfl, h, hw, _⟩
  · exact ⟨t, [], by simp, h, ws_nil⟩
  · exact ⟨u, w, rfl, h, hw⟩

theorem lead_elems : ∀ {vs : List Bytes}, (∀ v ∈ vs, Lead v) →
    ∃ es : List Elem, (∀ e ∈ es, e.Wf) ∧ (∀ e ∈ es, IsValue e.val) ∧ es.map Elem.text = vs
  | [], _ => ⟨[], by simp, by simp, rfl⟩
  | v :: vs, h => by
    obtain ⟨es, h1, h2, h3⟩ := lead_elems (vs := vs) fun x hx => h x (by simp [hx])
    obtain ⟨u, w, rfl, h4, h5⟩ := lead_split (h v (by simp))
    refine ⟨⟨[], u, w⟩ :: es, ?_, ?_, by simp [h3, Elem.text]⟩
    · intro e he; rcases List.mem_cons.1 he with rfl | he
      · exact ⟨ws_nil, h5⟩
      · exact h1 e he
    · intro e he; rcases List.mem_cons.1 he with rfl | he
      · exact h4
      · exact h2 e he

theorem elemsText_commaSep : ∀ es : List Elem, elemsText es = commaSep (es.map Elem.text)
  | [] => rfl
  | [e] => rfl
  | e :: f :: r => by
    have := elemsText_commaSep (f :: r)
    simp only [elemsText, List.map_cons, commaSep] at this ⊢
    rw [this]

theorem membersText_commaSep : ∀ ms : List Member, membersText ms = commaSep (ms.map Member.text)
  | [] => rfl
  | [e] => rfl
  | e :: f :: r => by
    have := membersText_commaSep (f :: r)
    simp only [membersText, List.map_cons, commaSep] at this ⊢
    rw [this]

theorem lead_array {vs : List Bytes} (h : ∀ v ∈ vs, Lead v) : IsValue (arrayText vs) := by
  obtain ⟨es, h1, h2, rfl⟩ := lead_elems h
  have := IsArray.isValue (isArray_of_elems h1 h2)
  rw [elemsText_commaSep] at this
  simpa [arrayText] using this

theorem lead_object {ms : List (Bytes × Bytes)} (h : ∀ m ∈ ms, Lead m.2) :
    IsValue (objectText (ms.map fun m => (jsonString m.1, m.2))) := by
  have : ∃ es : List Member, (∀ e ∈ es, e.Wf) ∧ (∀ e ∈ es, IsValue e.val) ∧
      es.map Member.text = ms.map fun m => jsonString m.1 ++ c! ':' :: m.2 := by
    induction ms with
    | nil => exact ⟨[], by simp, by simp, rfl⟩
    | cons m ms ih =>
      obtain ⟨es, h1, h2, h3⟩ := ih fun x hx => h x (by simp [hx])
      obtain ⟨u, w, hm, h4, h5⟩ := lead_split (h m (by simp))
      refine ⟨⟨[], jsonString m.1, [], [], u, w⟩ :: es, ?_, ?_, by simp [h3, Member.text, hm]⟩
      · intro e he; rcases List.mem_cons.1 he with rfl | he
        · exact ⟨ws_nil, strLit_escape _, ws_nil, ws_nil, h5⟩
        · exact h1 e he
      · intro e he; rcases List.mem_cons.1 he with rfl | he
        · exact h4
        · exact h2 e he
  obtain ⟨es, h1, h2, h3⟩ := this
  have := IsObject.isValue (isObject_of_members h1 h2)
  rw [membersText_commaSep, h3] at this
  simpa [objectText, Function.comp_def] using this

theorem utf8_object {ms : List (Bytes × Bytes)} (h : ∀ m ∈ ms, IsUtf8 m.1 ∧ IsUtf8 m.2) :
    IsUtf8 (objectText (ms.map fun m => (jsonString m.1, m.2))) := by
  refine utf8_objectText fun m hm => ?_
  obtain ⟨x, hx, rfl⟩ := List.mem_map.1 hm
  exact ⟨utf8_jsonString (h x hx).1, (h x hx).2⟩

/-- Without modifiers: any sequence of values and punctuation may be searched. -/
theorem inv_flow (U : Prop) : Inv (fun j => Flow j ∧ (U → IsUtf8 j)) (fun r => IsValue r ∧ (U → IsUtf8 r))
    (fun p => c! '@' ∉ p ∧ (U → IsUtf8 p)) where
  flow h := h.1
  nil := ⟨.nil, fun _ => .nil⟩
  doc h := ⟨.value h.1, h.2⟩
  part h hv hi := ⟨hv, fun hU => (h.2 hU).part hv hi⟩
  count n := ⟨natDec_value n, fun _ => natDec_utf8 n⟩
  array h := ⟨lead_array fun v hv => .inl (h v hv).1, fun hU => utf8_arrayText fun v hv => (h v hv).2 hU⟩
  object h := ⟨lead_object fun v hv => .inl (h v hv).2.1, fun hU => utf8_object fun v hv => ⟨(h v hv).1.2 hU, (h v hv).2.2 hU⟩⟩
  cut h hc := ⟨fun hq => h.1 (hc.infix.subset hq), fun hU => (h.2 hU).cuts hc⟩
  under := ⟨by decide, fun _ => by decide +kernel⟩
  mod {path j out} h hj hm _ _ := by
    obtain ⟨r, hr⟩ := isModifier_head hm
    exact absurd ((pNext_ok path).comp.subset (by rw [hr]; simp)) h.1

/-- With modifiers, on JSON texts. -/
theorem inv_tame (U : Prop) : Inv (fun j => j = [] ∨ JsonU U j) (fun r => Lead r ∧ (U → IsUtf8 r))
    (fun p => Tame p ∧ (U → IsUtf8 p)) where
  flow h := by
    rcases h with rfl | h
    · exact .nil
    · exact .text h.1
  nil := .inl rfl
  doc {r} h := by
    obtain ⟨u, w, e, h1, h2⟩ := lead_split h.1
    exact .inr ⟨⟨[], u, w, e, ws_nil, h2, h1⟩, h.2⟩
  part {j w} h hv hi := by
    rcases h with rfl | h
    · exact absurd (List.infix_nil.1 hi) (isValue_ne_nil hv)
    · exact ⟨.inl hv, fun hU => (h.2 hU).part hv hi⟩
  count n := ⟨.inl (natDec_value n), fun _ => natDec_utf8 n⟩
  array h := ⟨.inl (lead_array fun v hv => (h v hv).1), fun hU => utf8_arrayText fun v hv => (h v hv).2 hU⟩
  object h := ⟨.inl (lead_object fun v hv => (h v hv).2.1), fun hU => utf8_object fun v hv => ⟨(h v hv).1.2 hU, (h v hv).2.2 hU⟩⟩
  cut h hc := ⟨h.1.infix hc.infix, fun hU => (h.2 hU).cuts hc⟩
  under := ⟨by decide, fun _ => by decide +kernel⟩
  mod {path j out} h hj hm ho he := by
    rcases mod_keeps h.1 hm hj ho with rfl | h1
    · exact absurd he (by decide)
    · exact pParse_lead h1

theorem flow_lines {doc : Bytes} {vs : List Bytes} (h : JsonLines doc vs) : Flow doc := by
  induction h with
  | nil hw => simpa using Flow.ws hw .nil
  | last hw hv => exact .ws hw (.value hv)
  | cons hw hv hc _ ih => exact .ws hw (.val hv (.inl (.cons (.inl hc))) (.punct (.inl hc) ih))

theorem Prov.uesc {v : Value} (h : Prov v) : v.uescstr = [] ∨ v.uescstr = unescQ v.json := by
  have hv : ∀ (s : Bytes) (i : Option Nat) (info : UInt32), (mkVal s i info).uescstr = [] ∨ (mkVal s i info).uescstr = unescQ s := by
    intro s i info
    unfold mkVal; split <;> simp
  have ho : ∀ (s : Bytes) (i : Option Nat) (info : UInt32), (mkOwned s i info).uescstr = [] ∨ (mkOwned s i info).uescstr = unescQ s := by
    intro s i info
    unfold mkOwned; split <;> simp
  have ht : ∀ i t, (tokVal i t).uescstr = [] ∨ (tokVal i t).uescstr = unescQ (tokVal i t).json := by
    intro i t
    cases t with
    | none => exact .inl rfl
    | some x => unfold tokVal; rw [mkVal_json]; exact hv _ _ _
  induction h with
  | default => exact .inl rfl
  | tok i s => exact ht _ _
  | array b => rw [mkOwned_json]; exact ho _ _ _
  | object b => rw [mkOwned_json]; exact ho _ _ _
  | count n => rw [mkOwned_json]; exact ho _ _ _
  | modifier i s =>
    induction s generalizing i with
    | nil => exact .inl rfl
    | cons c r ih =>
      unfold pParse
      split
      · exact ih _
      split
      · rw [mkVal_json]; exact hv _ _ _
      split
      · rw [mkVal_json]; exact hv _ _ _
      split
      · exact ht _ _
      · exact .inl rfl
  | owned hp ih =>
    rw [jsonIntoOwned_json hp.oneText]
    exact ih
  | moved i _ ih => unfold addIndex; split <;> exact ih

/-- The string of a result whose text is UTF-8, whatever the text is. -/
theorem str_utf8_any {v : Value} (hp : Prov v) (hu : v.kind ≠ .true → v.kind ≠ .false → v.kind ≠ .null → IsUtf8 v.json)
    (he : v.kind = .string → Edged v.json)
    (hc : v.kind = .string → ∀ b, v.json = c! '"' :: (b ++ [c! '"']) → ¬ CutsChar b) {s : Bytes} (h : v.str = .ok s) : IsUtf8 s := by
  unfold Value.str at h
  split at h
  · cases h; decide +kernel
  · cases h; decide +kernel
  · rename_i hk; cases h; exact hu (by rw [hk]; decide) (by rw [hk]; decide) (by rw [hk]; decide)
  · rename_i hk; cases h; exact hu (by rw [hk]; decide) (by rw [hk]; decide) (by rw [hk]; decide)
  · rename_i hk; cases h; exact hu (by rw [hk]; decide) (by rw [hk]; decide) (by rw [hk]; decide)
  · rename_i hk
    have hj := hu (by rw [hk]; decide) (by rw [hk]; decide) (by rw [hk]; decide)
    split at h
    · cases h
      rcases hp.uesc with e | e
      · rw [e]; exact .nil
      · rw [e]; exact (unescQ_utf8 hj).2 (hc hk)
    · have hed := he hk
      generalize v.json = j at h hj hed
      cases j with
      | nil => simp [stripQuotes, rpanic] at h
      | cons x r =>
        rcases List.eq_nil_or_concat r with rfl | ⟨m, y, rfl⟩
        · simp [stripQuotes, slice] at h
        · rw [List.concat_eq_append] at h hj hed
          have h2 : stripQuotes (x :: (m ++ [y])) = .ok m := by
            unfold stripQuotes
            rw [if_neg (by simp), slice_ok (by simp) (by simp)]
            simp [sub]
          rw [h2] at h; cases h
          exact (hj.tail_ascii (hed.1 x (by simp))).left
            (hed.2 y (by rw [← List.cons_append, List.getLast?_concat]; simp))
  · cases h; exact .nil

/-- The string of a result whose text is UTF-8. -/
theorem str_utf8 {v : Value} (hp : Prov v) (hl : v.exists = true → Lead v.json) (hu : IsUtf8 v.json) {s : Bytes}
    (h : v.str = .ok s) : IsUtf8 s := by
  unfold Value.str at h
  split at h
  · cases h; decide +kernel
  · cases h; decide +kernel
  · cases h; exact hu
  · cases h; exact hu
  · cases h; exact hu
  · rename_i hk
    have hbody : v.json = [] ∨ ∃ b, StrBody b ∧ v.json = c! '"' :: (b ++ [c! '"']) := by
      cases he : v.exists with
      | false => left; unfold Value.exists at he; simpa using he
      | true =>
        have hs := hp.same (hl he)
        obtain ⟨b, hb, e⟩ := (hl he).string (hs.2.1.symm.trans hk)
        exact .inr ⟨b, hb, e⟩
    have hun : IsUtf8 (unescQ v.json) := by
      rcases hbody with e | ⟨b, hb, e⟩
      · rw [e]; exact .nil
      · have := C37_unescape_utf8_partial ⟨b, hb, rfl⟩ (e ▸ hu)
        rw [← e] at this
        obtain ⟨u, h1, h2⟩ := this
        rw [unescape_eq] at h1
        cases h1; exact h2
    split at h
    · cases h
      rcases hp.uesc with e | e
      · rw [e]; exact .nil
      · rw [e]; exact hun
    · rcases hbody with e | ⟨b, hb, e⟩
      · rw [e] at h; simp [stripQuotes, rpanic] at h
      · have h2 : stripQuotes v.json = .ok b := by
          rw [e]; unfold stripQuotes
          rw [if_neg (by simp), slice_ok (by simp) (by simp)]
          simp [sub]
        rw [h2] at h; cases h
        rw [e] at hu
        exact (hu.tail_ascii (by decide)).left (by decide)
  · cases h; exact .nil

end Gjson
