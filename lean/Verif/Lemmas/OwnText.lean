import Verif.Lemmas.Handed
import Verif.Lemmas.Usable
/-
A value a caller can hold is what `parse` makes of its text.
-/
namespace Gjson
open Spec

/-- The value is what `parse` makes of its text. -/
def OwnText (v : Value) : Prop := v.json ≠ [] → SameValue v (pParse 0 v.json)

theorem OwnText.same {a b : Value} (h : SameValue a b) (hb : OwnText b) : OwnText a := by
  intro hn
  rw [h.json] at hn ⊢
  exact h.trans (hb hn)

theorem numTake_idem (r : Bytes) : numTake (numTake r) = numTake r := by
  unfold numTake
  induction r with
  | nil => rfl
  | cons c r ih =>
    rw [List.takeWhile_cons]
    split
    · rename_i h; rw [List.takeWhile_cons, if_pos h, ih]
    · rfl

theorem tok_ownText (i : Nat) (s : Bytes) : OwnText (tokVal i (leafTok s).1) := by
  intro hn
  cases s with
  | nil => simp [leafTok, tokVal, Value.default, Value.json] at hn
  | cons c r =>
    have nil : Value.default.json = [] := rfl
    have leaf : ∀ (d : UInt8) (b : Bytes) (info : UInt32), ¬ d ≤ c! ' ' → d ≠ c! '{' → d ≠ c! '[' →
        (d = c! 't' ∨ d = c! 'f' ∨ d = c! 'n' ∨ d = c! '"' ∨ (c! '0' ≤ d ∧ d ≤ c! '9') ∨ d = c! '-') →
        (leafTok (d :: b)).1 = some (d :: b, info) → SameValue (mkVal (d :: b) (some i) info) (pParse 0 (d :: b)) := by
      intro d b info h1 h2 h3 h4 h5
      rw [pParse, if_neg h1, if_neg h2, if_neg h3, if_pos h4, h5]
      exact sameValue_index _ _ _ _
    revert hn
    rw [leafTok.eq_def]
    simp only
    split
    · rename_i hc
      subst hc
      cases hq : qStr r with
      | none => intro hn; simp [tokVal] at hn
      | some x =>
        obtain ⟨b, f, q⟩ := x
        intro _
        simp only [tokVal, mkVal_json]
        refine leaf _ _ _ (by decide) (by decide) (by decide) (by simp) ?_
        have := qStr_ext hq []
        rw [List.append_nil] at this
        simp only [leafTok, if_true, this]
    split
    · rename_i hc
      cases hq : sq 1 false r with
      | none => intro hn; simp [tokVal] at hn
      | some x =>
        obtain ⟨b, q⟩ := x
        intro _
        simp only [tokVal, mkVal_json]
        rcases hc with rfl | rfl
        · rw [pParse, if_neg (by decide), if_pos rfl]
          exact sameValue_of (by simp) (by simp only [mkVal_kind]; decide) (by intro h; rw [mkVal_kind] at h; exact absurd h (by decide))
        · rw [pParse, if_neg (by decide), if_neg (by decide), if_pos rfl]
          exact sameValue_of (by simp) (by simp only [mkVal_kind]; decide) (by intro h; rw [mkVal_kind] at h; exact absurd h (by decide))
    split
    · rename_i h1 h2 h3
      intro _
      simp only [tokVal, mkVal_json]
      refine leaf _ _ _ (by unfold NumStart at h3; grind) (by grind) (by grind) (by unfold NumStart at h3; grind) ?_
      simp only [leafTok, if_neg h1, if_neg h2, if_pos h3, numTake_idem]
    split
    · rename_i h4
      subst h4
      split
      · intro hn; simp [tokVal, nil] at hn
      · rename_i hl
        intro _
        simp only [tokVal, mkVal_json]
        refine leaf _ _ _ (by decide) (by decide) (by decide) (by simp) ?_
        have e : ¬ (r.take 3).length < 3 := by simp; omega
        rw [leafTok.eq_def]
        simp only [e, if_false]
        rw [if_neg (by decide), if_neg (by decide), if_neg (by decide), if_pos trivial, List.take_take, Nat.min_self]
    split
    · rename_i h4
      subst h4
      split
      · intro hn; simp [tokVal, nil] at hn
      · rename_i hl
        intro _
        simp only [tokVal, mkVal_json]
        refine leaf _ _ _ (by decide) (by decide) (by decide) (by simp) ?_
        have e : ¬ (r.take 4).length < 4 := by simp; omega
        rw [leafTok.eq_def]
        simp only [e, if_false]
        rw [if_neg (by decide), if_neg (by decide), if_neg (by decide), if_neg (by decide), if_pos trivial, List.take_take, Nat.min_self]
    split
    · rename_i h4
      subst h4
      split
      · intro hn; simp [tokVal, nil] at hn
      · rename_i hl
        intro _
        simp only [tokVal, mkVal_json]
        refine leaf _ _ _ (by decide) (by decide) (by decide) (by simp) ?_
        have e : ¬ (r.take 3).length < 3 := by simp; omega
        rw [leafTok.eq_def]
        simp only [e, if_false]
        rw [if_neg (by decide), if_neg (by decide), if_neg (by decide), if_neg (by decide), if_neg (by decide), if_pos trivial,
          List.take_take, Nat.min_self]
    · intro hn; simp [tokVal, nil] at hn

theorem default_ownText : OwnText Value.default := fun h => absurd rfl h

theorem pParse_ownText (s : Bytes) : ∀ i, OwnText (pParse i s) := by
  induction s with
  | nil => intro i; exact default_ownText
  | cons c r ih =>
    intro i
    unfold pParse
    split
    · exact ih _
    split
    · rename_i h1 h2
      intro _
      rw [mkVal_json, pParse, if_neg h1, if_pos h2]
      exact sameValue_index _ _ _ _
    split
    · rename_i h1 h2 h3
      intro _
      rw [mkVal_json, pParse, if_neg h1, if_neg h2, if_pos h3]
      exact sameValue_index _ _ _ _
    split
    · exact tok_ownText _ _
    · exact default_ownText

theorem kind_of_digits (n : Nat) : kindOf (numeral n) = .number := by
  obtain ⟨c, r, h, hc⟩ := digit_first (n := n)
  rw [h]
  unfold IsDigit at hc
  unfold kindOf
  simp only
  grind

theorem count_ownText (n : Nat) : OwnText (mkOwned (natDec n) none INFO_NUMBER) := by
  intro _
  rw [mkOwned_json, natDec_eq]
  have hv : IsValue (numeral n) := .num ⟨[], numeral n, [], [], by simp, .inl rfl, (numeral_spec n).2.2.2, .inl rfl, .inl rfl⟩
  obtain ⟨_, _, w, h1, h2⟩ := leaf_sameAsText hv none
  rw [parse_eq] at h1; cases h1
  refine SameValue.trans (sameValue_of ?_ ?_ ?_) h2
  · rw [mkOwned_json, leafVal_json]
  · rw [mkOwned_kind, leafVal_kind (isValue_ne_nil hv), kind_of_digits]; decide
  · intro h; rw [mkOwned_kind] at h; exact absurd h (by decide)

theorem Prov.ownText {v : Value} (h : Prov v) : OwnText v := by
  induction h with
  | default => exact default_ownText
  | tok i s => exact tok_ownText _ _
  | array b =>
    intro _
    rw [mkOwned_json, pParse, if_neg (by decide), if_neg (by decide), if_pos rfl]
    exact sameValue_of (by simp) (by simp only [mkVal_kind, mkOwned_kind]; decide) (by intro h; rw [mkOwned_kind] at h; exact absurd h (by decide))
  | object b =>
    intro _
    rw [mkOwned_json, pParse, if_neg (by decide), if_pos rfl]
    exact sameValue_of (by simp) (by simp only [mkVal_kind, mkOwned_kind]; decide) (by intro h; rw [mkOwned_kind] at h; exact absurd h (by decide))
  | count n => exact count_ownText n
  | modifier i s => exact pParse_ownText _ _
  | owned hv ih => exact OwnText.same (sameValue_owned hv.oneText) ih
  | moved i _ ih => exact OwnText.same (sameValue_addIndex _ _) ih

theorem sameValue_clone (v : Value) : SameValue (jsonCloneFromRef v) v := by
  refine sameValue_of ?_ rfl (fun _ => ⟨rfl, fun _ => rfl⟩)
  unfold jsonCloneFromRef
  rw [Value.json]; simp

theorem each_ownText {v : Value} (ho : OwnText v) {l : List (Value × Value)}
    (h : v.each (fun acc k x => .ok (acc ++ [(k, x)], true)) [] = .ok l) : ∀ p ∈ l, OwnText p.1 ∧ OwnText p.2 := by
  cases hj : v.json with
  | nil =>
    have : v.exists = false := by unfold Value.exists; rw [hj]; rfl
    unfold Value.each at h
    rw [this] at h
    simp at h; subst h; simp
  | cons c q =>
    by_cases hk : v.kind = .object ∨ v.kind = .array
    · rw [each_eq hj hk, visit_collect_pairs] at h
      cases h
      intro p hp
      rw [List.nil_append] at hp
      unfold eachPairs at hp
      split at hp
      · have := pairUp_both _ hp
        exact ⟨(toks_prov _ _ _ this.1).ownText, (toks_prov _ _ _ this.2).ownText⟩
      · obtain ⟨x, hx, rfl⟩ := List.mem_map.1 hp
        exact ⟨default_ownText, (toks_prov _ _ _ hx).ownText⟩
    · unfold Value.each at h
      rw [if_neg (by rw [show v.exists = true from exists_json.2 (by rw [hj]; simp)]; simp), if_pos (by grind)] at h
      cases h
      intro p hp
      simp at hp; subst hp
      exact ⟨default_ownText, OwnText.same (sameValue_clone v) ho⟩

theorem Handed.ownText {v : Value} (h : Handed v) : OwnText v := by
  induction h with
  | parse h => rw [parse_eq] at h; cases h; exact pParse_ownText _ _
  | get h => exact (get_prov h).ownText
  | value _ h ih =>
    have h' : getIn Gjson.get _ _ = .ok _ := h
    unfold getIn at h'
    split at h'
    · obtain ⟨r, h1, h2⟩ := bind_eq_ok.1 h'
      cases h2
      exact (Prov.moved _ (get_prov h1)).ownText
    · obtain ⟨r, h1, h2⟩ := bind_eq_ok.1 h'
      simp only [ok_bind] at h2
      cases h2
      exact (Prov.moved _ (.owned (get_prov h1))).ownText
  | @element v e vals hv h he ih =>
    by_cases hk : v.kind = .array
    · cases hj : v.json with
      | nil =>
        have : v.exists = false := by unfold Value.exists; rw [hj]; rfl
        unfold Value.array Value.each at h
        rw [if_pos hk, this] at h
        simp at h; subst h; simp at he
      | cons c q =>
        rw [array_eq hj hk] at h
        cases h
        exact (toks_prov _ _ _ he).ownText
    · unfold Value.array at h
      rw [if_neg hk] at h; cases h; simp at he
  | key _ h he ih => exact (each_ownText ih h _ he).1
  | entry _ h he ih => exact (each_ownText ih h _ he).2

theorem tok_kindOf (i : Nat) (s : Bytes) (h : (tokVal i (leafTok s).1).json ≠ []) :
    (tokVal i (leafTok s).1).kind = kindOf (tokVal i (leafTok s).1).json := by
  have nil : Value.default.json = [] := rfl
  revert h
  cases s with
  | nil => intro h; simp [leafTok, tokVal, nil] at h
  | cons c r =>
    rw [leafTok.eq_def]
    simp only
    split
    · rename_i hc
      subst hc
      cases hq : qStr r with
      | none => intro hn; simp [tokVal] at hn
      | some x =>
        obtain ⟨b, f, q⟩ := x
        intro _
        simp only [tokVal, mkVal_json, mkVal_kind, kindOf, if_true]
        cases f <;> decide
    split
    · rename_i hc
      cases hq : sq 1 false r with
      | none => intro hn; simp [tokVal] at hn
      | some x =>
        obtain ⟨b, q⟩ := x
        intro _
        simp only [tokVal, mkVal_json, mkVal_kind, kindOf]
        rcases hc with rfl | rfl <;> decide
    split
    · rename_i h1 h2 h3
      intro _
      simp only [tokVal, mkVal_json, mkVal_kind, kindOf]
      rw [kind_numFlags (numFlags_mem (signBit_mem c)), if_neg h1, if_neg (by grind), if_neg (by grind), if_neg (by unfold NumStart at h3; grind),
        if_neg (by unfold NumStart at h3; grind), if_neg (by unfold NumStart at h3; grind)]
    split
    · rename_i h4
      subst h4
      split
      · intro hn; simp [tokVal, nil] at hn
      · intro _; simp only [tokVal, mkVal_json, mkVal_kind, kindOf]; decide
    split
    · rename_i h4
      subst h4
      split
      · intro hn; simp [tokVal, nil] at hn
      · intro _; simp only [tokVal, mkVal_json, mkVal_kind, kindOf]; decide
    split
    · rename_i h4
      subst h4
      split
      · intro hn; simp [tokVal, nil] at hn
      · intro _; simp only [tokVal, mkVal_json, mkVal_kind, kindOf]; decide
    · intro hn; simp [tokVal, nil] at hn

theorem pParse_kindOf (s : Bytes) : ∀ i, (pParse i s).json ≠ [] → (pParse i s).kind = kindOf (pParse i s).json := by
  induction s with
  | nil => intro i h; exact absurd rfl h
  | cons c r ih =>
    intro i
    unfold pParse
    split
    · exact ih _
    split
    · rename_i h1 h2
      subst h2
      intro _
      simp only [mkVal_json, mkVal_kind, kindOf]; decide
    split
    · rename_i h1 h2 h3
      subst h3
      intro _
      simp only [mkVal_json, mkVal_kind, kindOf]; decide
    split
    · exact tok_kindOf _ _
    · intro h; exact absurd rfl h

end Gjson
