import Verif.SpecResults
import Verif.Lemmas.Prov
import Verif.Lemmas.Lookup
/-
A result whose text is a JSON value agrees with what `parse` reads off that text.
-/
namespace Gjson
open Spec

theorem kindOf_append {u : Bytes} (h : u ≠ []) (w : Bytes) : kindOf (u ++ w) = kindOf u := by
  cases u with
  | nil => exact absurd rfl h
  | cons c r => rfl

theorem Spec.Lead.ne_nil {t : Bytes} (h : Lead t) : t ≠ [] := by
  rcases h with h | ⟨u, w, rfl, h, _⟩
  · exact isValue_ne_nil h
  · intro e; simp at e; exact isValue_ne_nil h e.1

theorem Spec.Lead.string {t : Bytes} (h : Lead t) (hk : kindOf t = .string) : StrLit t := by
  have : IsValue t := by
    rcases h with h | ⟨u, w, rfl, h, _, hu⟩
    · exact h
    · rw [kindOf_append (isValue_ne_nil h)] at hk; rw [hk] at hu; simp at hu
  cases this with
  | null => simp [kindOf] at hk
  | true => simp [kindOf] at hk
  | false => simp [kindOf] at hk
  | str h => exact h
  | num h =>
    obtain ⟨d, q', rfl, hd⟩ := NumLit.cons h
    simp only [kindOf] at hk
    unfold IsDigit at hd
    grind
  | arrEmpty _ => simp [kindOf] at hk
  | arr _ _ _ => simp [kindOf] at hk
  | objEmpty _ => simp [kindOf] at hk
  | obj _ _ _ => simp [kindOf] at hk

/-- What `parse` reads off such a text. -/
theorem Spec.Lead.parse {t : Bytes} (h : Lead t) : ∃ w, Gjson.parse t = .ok w ∧ w.json = t ∧ w.kind = kindOf t := by
  rcases h with h | ⟨u, w, rfl, h, _, hu⟩
  · obtain ⟨w, h1, h2⟩ := leaf_same_parse h none
    exact ⟨w, h1, h2.json.symm.trans (leafVal_json _ _), h2.kind.symm.trans (leafVal_kind (isValue_ne_nil h))⟩
  · obtain ⟨h1, h2⟩ := pParse_cont (r := w) h hu 0
    refine ⟨_, by rw [parse_eq, h1], mkVal_json _ _ _, ?_⟩
    rw [mkVal_kind, kindOf_append (isValue_ne_nil h), ← infoOf_kind (isValue_ne_nil h)]
    rcases h2 with h2 | h2 <;> rw [h2] <;> decide

theorem Spec.Lead.same {v : Value} (h : Lead v.json) (hk : v.kind = kindOf v.json) (hs : kindOf v.json ≠ .string) :
    SameAsText v v.json := by
  obtain ⟨w, h1, h2, h3⟩ := h.parse
  exact ⟨rfl, hk, w, h1, sameValue_of h2.symm (hk.trans h3.symm) (fun h => absurd (hk.symm.trans h) hs)⟩

theorem tok_same {i : Nat} {s : Bytes} (h : Lead (tokVal i (leafTok s).1).json) :
    SameAsText (tokVal i (leafTok s).1) (tokVal i (leafTok s).1).json := by
  have hne := h.ne_nil
  cases s with
  | nil => exact absurd rfl hne
  | cons c r =>
    rcases leafTok_split (s := c :: r) (by simp) with ⟨t, info, h1, h2, h3⟩ | ⟨_, h2⟩
    · have ht : (leafTok (c :: r)).1 = some (t, info) := by rw [h1]
      have hj : (tokVal i (leafTok (c :: r)).1).json = t := by rw [ht]; exact mkVal_json _ _ _
      rw [hj] at h
      obtain ⟨d, t', rfl⟩ : ∃ d t', t = d :: t' := by
        cases t with
        | nil => exact absurd rfl h2
        | cons d t' => exact ⟨d, t', rfl⟩
      have hd : c = d := by simpa using congrArg List.head? h3
      subst hd
      by_cases hk : kindOf (c :: t') = .string
      · have hstr := h.string hk
        have := leafTok_str (r := (leafTok (c :: r)).2) hstr
        rw [← h3, ht |> fun e => (Prod.ext_iff.2 ⟨e, rfl⟩ : leafTok (c :: r) = (some (c :: t', info), (leafTok (c :: r)).2))] at this
        simp only [Prod.mk.injEq, Option.some.injEq, true_and, and_true] at this
        subst this
        rw [hj]
        simp only [ht]
        exact leaf_sameAsText (.str hstr) (some i)
      · have hkind : (tokVal i (leafTok (c :: r)).1).kind = kindOf (c :: t') := by
          rw [ht]
          show (mkVal _ _ _).kind = _
          rw [mkVal_kind]
          simp only [leafTok] at ht
          have c1 : ¬ c = c! '"' := by intro e; simp [kindOf, e] at hk
          rw [if_neg c1] at ht
          simp only [kindOf, if_neg c1]
          by_cases c2 : c = c! '{' ∨ c = c! '['
          · rw [if_pos c2] at ht
            have : info = contBit c := by
              split at ht
              · simp at ht
              · simp at ht; exact ht.2.symm
            rw [this]
            rcases c2 with rfl | rfl <;> decide
          rw [if_neg c2] at ht
          rw [not_or] at c2
          rw [if_neg c2.1, if_neg c2.2]
          by_cases c3 : NumStart c
          · rw [if_pos c3] at ht
            simp at ht
            rw [← ht.2, kind_numFlags (numFlags_mem _)]
            · unfold NumStart at c3
              rw [if_neg (by grind), if_neg (by grind), if_neg (by grind)]
            · unfold signBit NumFlags; split <;> simp
          rw [if_neg c3] at ht
          by_cases c4 : c = c! 't'
          · rw [if_pos c4] at ht ⊢
            split at ht
            · simp at ht
            · simp at ht; rw [← ht.2]; decide
          rw [if_neg c4] at ht ⊢
          by_cases c5 : c = c! 'f'
          · rw [if_pos c5] at ht ⊢
            split at ht
            · simp at ht
            · simp at ht; rw [← ht.2]; decide
          rw [if_neg c5] at ht ⊢
          by_cases c6 : c = c! 'n'
          · rw [if_pos c6] at ht ⊢
            split at ht
            · simp at ht
            · simp at ht; rw [← ht.2]; decide
          rw [if_neg c6] at ht
          simp at ht
        exact Lead.same (by rw [hj]; exact h) (by rw [hj]; exact hkind) (by rw [hj]; exact hk)
    · have := h2 i
      unfold Value.exists at this
      simp at this
      exact absurd this hne

theorem pParse_same : ∀ {s : Bytes} {i : Nat}, Lead (pParse i s).json → SameAsText (pParse i s) (pParse i s).json
  | [], i, h => absurd rfl h.ne_nil
  | c :: r, i, h => by
    by_cases c1 : c ≤ c! ' '
    · have e : pParse i (c :: r) = pParse (i + 1) r := by simp only [pParse]; rw [if_pos c1]
      rw [e] at h ⊢
      exact pParse_same h
    by_cases c2 : c = c! '{'
    · have e : pParse i (c :: r) = mkVal (c :: r) (some i) (INFO_OBJECT ||| INFO_FOG) := by
        simp only [pParse]; rw [if_neg c1, if_pos c2]
      rw [e] at h ⊢
      exact h.same (by rw [mkVal_json, mkVal_kind, c2]; rfl) (by rw [mkVal_json, c2]; simp [kindOf])
    by_cases c3 : c = c! '['
    · have e : pParse i (c :: r) = mkVal (c :: r) (some i) (INFO_ARRAY ||| INFO_FOG) := by
        simp only [pParse]; rw [if_neg c1, if_neg c2, if_pos c3]
      rw [e] at h ⊢
      exact h.same (by rw [mkVal_json, mkVal_kind, c3]; rfl) (by rw [mkVal_json, c3]; simp [kindOf])
    by_cases c4 : c = c! 't' ∨ c = c! 'f' ∨ c = c! 'n' ∨ c = c! '"' ∨ (c! '0' ≤ c ∧ c ≤ c! '9') ∨ c = c! '-'
    · have e : pParse i (c :: r) = tokVal i (leafTok (c :: r)).1 := by
        simp only [pParse]; rw [if_neg c1, if_neg c2, if_neg c3, if_pos c4]
      rw [e] at h ⊢
      exact tok_same h
    · have e : pParse i (c :: r) = Value.default := by
        simp only [pParse]; rw [if_neg c1, if_neg c2, if_neg c3, if_neg c4]
      rw [e] at h
      exact absurd rfl h.ne_nil

/-- Every result with such a text agrees with `parse` of that text. -/
theorem Prov.same {v : Value} (hp : Prov v) (h : Lead v.json) : SameAsText v v.json := by
  induction hp with
  | default => exact absurd rfl h.ne_nil
  | tok i s => exact tok_same h
  | array b => exact h.same (by rw [mkOwned_json, mkOwned_kind]; rfl) (by rw [mkOwned_json]; simp [kindOf])
  | object b => exact h.same (by rw [mkOwned_json, mkOwned_kind]; rfl) (by rw [mkOwned_json]; simp [kindOf])
  | count n =>
    have : kindOf (natDec n) = .number := by
      rw [natDec_eq]
      obtain ⟨h1, h2, _⟩ := numeral_spec n
      cases hn : numeral n with
      | nil => exact absurd hn h1
      | cons c r =>
        have := h2 c (by rw [hn]; simp)
        unfold IsDigit at this
        simp only [kindOf]
        rw [if_neg (by grind), if_neg (by grind), if_neg (by grind), if_neg (by grind), if_neg (by grind), if_neg (by grind)]
    exact h.same (by rw [mkOwned_json, mkOwned_kind, this]; decide) (by rw [mkOwned_json, this]; decide)
  | modifier i s => exact pParse_same h
  | @owned v hp ih =>
    have hs := sameValue_owned hp.oneText
    rw [hs.json] at h ⊢
    exact (ih h).of_same hs
  | @moved i v hp ih =>
    have hs := sameValue_addIndex i v
    rw [hs.json] at h ⊢
    exact (ih h).of_same hs

end Gjson
