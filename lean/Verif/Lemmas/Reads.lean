import Verif.Lemmas.Rules
import Verif.Lemmas.Coherent
import Verif.Props.Truth
import Verif.Props.Convert
/-
What the accessors and queries do with a result depends on its text only, as
`Spec.StrVal`, `Spec.SignedVal`, `Spec.Truth` and `Spec.Compared` say.
-/
namespace Gjson
open Spec

theorem tok_cont {i : Nat} {s : Bytes} (h : IsCont (tokVal i (leafTok s).1).json) :
    (tokVal i (leafTok s).1).kind = kindOf (tokVal i (leafTok s).1).json := by
  cases s with
  | nil => simp [IsCont, kindOf, leafTok, tokVal, Value.json, Value.default] at h
  | cons c r =>
    rcases leafTok_split (s := c :: r) (by simp) with ⟨t, info, h1, h2, h3⟩ | ⟨_, h2⟩
    · have ht : (leafTok (c :: r)).1 = some (t, info) := by rw [h1]
      rw [ht] at h ⊢
      simp only [tokVal, mkVal_json, mkVal_kind] at h ⊢
      obtain ⟨d, t', rfl⟩ : ∃ d t', t = d :: t' := by
        cases t with
        | nil => exact absurd rfl h2
        | cons d t' => exact ⟨d, t', rfl⟩
      have hd : c = d := by simpa using congrArg List.head? h3
      subst hd
      rw [isCont_cons] at h
      simp only [leafTok] at ht
      rw [if_neg (by grind), if_pos h] at ht
      have : info = contBit c := by
        split at ht
        · simp at ht
        · simp at ht; exact ht.2.symm
      rw [this]
      rcases h with rfl | rfl <;> rfl
    · have := h2 i
      unfold Value.exists at this
      simp at this
      rw [this] at h
      simp [IsCont, kindOf] at h

theorem pParse_kind : ∀ {s : Bytes} {i : Nat}, IsCont (pParse i s).json → (pParse i s).kind = kindOf (pParse i s).json
  | [], i, h => by simp [IsCont, kindOf, pParse, Value.json, Value.default] at h
  | c :: r, i, h => by
    by_cases c1 : c ≤ c! ' '
    · have e : pParse i (c :: r) = pParse (i + 1) r := by simp only [pParse]; rw [if_pos c1]
      rw [e] at h ⊢
      exact pParse_kind h
    by_cases c2 : c = c! '{'
    · have e : pParse i (c :: r) = mkVal (c :: r) (some i) (INFO_OBJECT ||| INFO_FOG) := by
        simp only [pParse]; rw [if_neg c1, if_pos c2]
      rw [e, mkVal_json, mkVal_kind, c2]; rfl
    by_cases c3 : c = c! '['
    · have e : pParse i (c :: r) = mkVal (c :: r) (some i) (INFO_ARRAY ||| INFO_FOG) := by
        simp only [pParse]; rw [if_neg c1, if_neg c2, if_pos c3]
      rw [e, mkVal_json, mkVal_kind, c3]; rfl
    by_cases c4 : c = c! 't' ∨ c = c! 'f' ∨ c = c! 'n' ∨ c = c! '"' ∨ (c! '0' ≤ c ∧ c ≤ c! '9') ∨ c = c! '-'
    · have e : pParse i (c :: r) = tokVal i (leafTok (c :: r)).1 := by
        simp only [pParse]; rw [if_neg c1, if_neg c2, if_neg c3, if_pos c4]
      rw [e] at h ⊢
      exact tok_cont h
    · have e : pParse i (c :: r) = Value.default := by
        simp only [pParse]; rw [if_neg c1, if_neg c2, if_neg c3, if_neg c4]
      rw [e] at h
      simp [IsCont, kindOf, Value.json, Value.default] at h

/-- A result whose text begins with a bracket is an array or object. -/
theorem Prov.cont {v : Value} (hp : Prov v) (h : IsCont v.json) : v.kind = kindOf v.json := by
  induction hp with
  | default => simp [IsCont, kindOf, Value.json, Value.default] at h
  | tok i s => exact tok_cont h
  | array b => rw [mkOwned_json, mkOwned_kind]; rfl
  | object b => rw [mkOwned_json, mkOwned_kind]; rfl
  | count n =>
    rw [mkOwned_json, natDec_eq] at h
    obtain ⟨h1, h2, _⟩ := numeral_spec n
    cases hn : numeral n with
    | nil => exact absurd hn h1
    | cons c r =>
      have := h2 c (by rw [hn]; simp)
      rw [hn, isCont_cons] at h
      unfold IsDigit at this
      grind
  | modifier i s => exact pParse_kind h
  | @owned v hp ih =>
    have hs := sameValue_owned hp.oneText
    rw [hs.json] at h ⊢
    rw [hs.kind]; exact ih h
  | @moved i v hp ih =>
    have hs := sameValue_addIndex i v
    rw [hs.json] at h ⊢
    rw [hs.kind]; exact ih h

/-- A result with the text `x`. -/
def Has (w : Value) (x : Bytes) : Prop := Fits w x ∧ Prov w

theorem Has.scalar {w : Value} {x : Bytes} (h : Has w x) (hv : IsValue x) : SameValue w (leafVal none x) := by
  have hs := h.2.same (by rw [h.1.1]; exact .inl hv)
  rw [h.1.1] at hs
  obtain ⟨_, _, u, h1, h2⟩ := hs
  obtain ⟨u', h3, h4⟩ := leaf_same_parse hv none
  rw [h1] at h3; cases h3
  exact h2.trans h4.symm

theorem Has.kind {w : Value} {x : Bytes} (h : Has w x) (hx : IsCont x) : w.kind = kindOf x := by
  have := h.2.cont (by rw [h.1.1]; exact hx)
  rwa [h.1.1] at this

theorem Has.none {w : Value} (h : Has w []) : SameValue w Value.default := h.1.2 rfl

theorem Has.exists {w : Value} {x : Bytes} (h : Has w x) (hx : x ≠ []) : w.exists = true := by
  rw [exists_json, h.1.1]; exact hx

theorem content_strLit {x s : Bytes} (h : Content x s) : StrLit x := by
  obtain ⟨b, h1, h2, _⟩ := h
  exact ⟨b, h1, h2⟩

theorem content_value {w : Value} {x s : Bytes} (h : Has w x) (hc : Content x s) :
    w.kind = .string ∧ w.str = .ok s ∧ w.i64 = .ok (rawToI64 s) ∧ w.u64 = .ok (rawToU64 s) := by
  have hs := h.scalar (.str (content_strLit hc))
  obtain ⟨b, h1, rfl, h3⟩ := hc
  have hk : (leafVal none (c! '"' :: (b ++ [c! '"']))).kind = .string := by rw [leafVal_kind (by simp)]; rfl
  have hn := leafVal_strForNum h1 none
  rw [shown_unesc h3] at hn
  refine ⟨hs.kind.trans hk, hs.str.trans ?_, hs.i64.trans ?_, hs.u64.trans ?_⟩
  · rw [leafVal_str h1, shown_unesc h3]
  · unfold Value.i64; rw [hk]; simp only; rw [hn]; rfl
  · unfold Value.u64; rw [hk]; simp only; rw [hn]; rfl

theorem number_value {w : Value} {x : Bytes} (h : Has w x) (hn : NumLit x) :
    w.kind = .number ∧ w.str = .ok x ∧ w.i64 = .ok (rawToI64 x) ∧ w.u64 = .ok (rawToU64 x) ∧ w.f64 = .ok (rawToF64 x) := by
  have hs := h.scalar (.num hn)
  have hk : w.kind = .number := by
    rw [hs.kind, leafVal_kind (numLit_kindOf hn).1]; exact (numLit_kindOf hn).2
  refine ⟨hk, ?_, ?_, ?_, ?_⟩
  · unfold Value.str; rw [hk]; simp only; rw [h.1.1]
  · unfold Value.i64; rw [hk]; simp only; rw [h.1.1]
  · unfold Value.u64; rw [hk]; simp only; rw [h.1.1]
  · unfold Value.f64; rw [hk]; simp only; rw [h.1.1]

theorem bool_value {w : Value} (b : Bool) (h : Has w (boolText b)) : w.kind = if b then .true else .false := by
  cases b with
  | true => rw [(h.scalar .true).kind, leafVal_kind (by simp [boolText])]; rfl
  | false => rw [(h.scalar .false).kind, leafVal_kind (by simp [boolText])]; rfl

theorem noScalar_value {w : Value} {x : Bytes} (h : Has w x) (hx : NoScalar x) :
    w.kind = .null ∨ w.kind = .object ∨ w.kind = .array := by
  rcases hx with rfl | rfl | hx | hx
  · exact .inl h.none.kind
  · left; rw [(h.scalar .null).kind, leafVal_kind (by simp)]; rfl
  · exact .inr (.inl ((h.kind (.inl hx)).trans hx))
  · exact .inr (.inr ((h.kind (.inr hx)).trans hx))

theorem strVal_ok {w : Value} {x s : Bytes} (h : Has w x) (hs : StrVal x s) : w.str = .ok s := by
  cases hs with
  | none => rw [h.none.str]; rfl
  | null =>
    have : w.kind = .null := by rw [(h.scalar .null).kind, leafVal_kind (by simp)]; rfl
    unfold Value.str; rw [this]
  | str hc => exact (content_value h hc).2.1
  | num hn => exact (number_value h hn).2.1
  | bool b =>
    have := bool_value b h
    unfold Value.str
    rw [this]
    cases b <;> rfl
  | cont hx =>
    have := h.kind hx
    unfold Value.str
    rw [this]
    rcases hx with hx | hx <;> rw [hx] <;> simp only <;> rw [h.1.1]

theorem signedVal_ok {w : Value} {x : Bytes} {n : Int} (h : Has w x) (hs : SignedVal x n) : w.i64 = .ok n := by
  have det : ∀ {t : Bytes} {n : Int}, SignedOf t n → rawToI64 t = n := by
    intro t n hn
    obtain ⟨m, hm⟩ := (C46_determined t).2.1
    rw [(hm _).1 hn, (hm _).1 (signedOf_raw t)]
  cases hs with
  | num hn hs => rw [(number_value h hn).2.2.1, det hs]
  | str hc hs => rw [(content_value h hc).2.2.1, det hs]
  | bool b =>
    have := bool_value b h
    unfold Value.i64
    rw [this]
    cases b <;> rfl
  | other hx =>
    have := noScalar_value h hx
    unfold Value.i64
    rcases this with h | h | h <;> rw [h]

theorem unsignedVal_ok {w : Value} {x : Bytes} {n : Nat} (h : Has w x) (hs : UnsignedVal x n) : w.u64 = .ok n := by
  have det : ∀ {t : Bytes} {n : Nat}, UnsignedOf t n → rawToU64 t = n := by
    intro t n hn
    obtain ⟨m, hm⟩ := (C46_determined t).2.2
    rw [(hm _).1 hn, (hm _).1 (unsignedOf_raw t)]
  cases hs with
  | num hn hs => rw [(number_value h hn).2.2.2.1, det hs]
  | str hc hs => rw [(content_value h hc).2.2.2, det hs]
  | bool b =>
    have := bool_value b h
    unfold Value.u64
    rw [this]
    cases b <;> rfl
  | other hx =>
    have := noScalar_value h hx
    unfold Value.u64
    rcases this with h | h | h <;> rw [h]

theorem truth_ok {w : Value} {x : Bytes} {b : Bool} (h : Has w x) (ht : Truth x b) : w.bool = .ok b := by
  obtain ⟨c1, c2, _, c4⟩ := C39_bool w
  rw [h.1.1] at c1 c2 c4
  cases ht with
  | yes hx => exact c1 hx
  | no hx => exact c2 hx
  | num h1 h2 hs => exact c4 h1 h2 _ (signedVal_ok h hs)

/-! ### Queries -/

theorem queryRpv_stands {rh r : Bytes} (h : Stands rh r) : queryRpv rh = .ok r := by
  cases h with
  | plain h => exact queryRpv_operand (.inr ⟨h, rfl⟩)
  | quoted h1 h2 => exact queryRpv_operand (.inl ⟨content_strLit h2, h1, content_keyIs h2⟩)
  | empty => rfl

theorem queryMatches_stands {rh r : Bytes} (h : Stands rh r) (ht : NoTilde r) (v : Value) (op : Bytes) :
    queryMatches v op rh = queryCompare v op r := by
  unfold queryMatches
  rw [queryRpv_stands h]
  simp only [ok_bind]
  cases r with
  | nil => rfl
  | cons c q => simp only; rw [if_neg (ht c (by simp))]

/-- What a text stands for can be written plainly or quoted. -/
theorem stands_operand {rh r : Bytes} (h : Stands rh r) : ∃ rh', Operand rh' r ∧ ∀ v op, NoTilde r → queryMatches v op rh = queryMatches v op rh' := by
  cases h with
  | plain h => exact ⟨_, .inr ⟨h, rfl⟩, fun _ _ _ => rfl⟩
  | quoted h1 h2 => exact ⟨_, .inl ⟨content_strLit h2, h1, content_keyIs h2⟩, fun _ _ _ => rfl⟩
  | empty =>
    have ho : Operand b!"\"\\\"\\\"\"" b!"\"\"" := by
      refine .inl ⟨⟨b!"\\\"\\\"", .esc (by decide) (.esc (by decide) .nil), rfl⟩, by decide, ⟨_, rfl, by decide +kernel⟩⟩
    refine ⟨_, ho, fun v op ht => ?_⟩
    rw [queryMatches_stands .empty ht, queryMatches_plain ho ht]

theorem onBool_eq (op : Op) (x : Bool) (r : Bytes) : op.onBool x r = if x then trueOp op.name r else falseOp op.name r := by
  cases op <;> cases x <;> rfl

theorem opName_some (op : Op) : opName (some op) = op.name := rfl

theorem compared_ok {w : Value} {op : Option Op} {rh x : Bytes} {b : Bool} (h : Has w x) (hc : Compared op rh x b) :
    queryMatches w (opName op) rh = .ok b := by
  cases hc with
  | «exists» =>
    rw [queryMatches_plain (rh := []) (r := []) (.inr ⟨by simp, rfl⟩) (by unfold NoTilde; simp)]
    unfold queryCompare
    have he := exists_json (v := w)
    rw [h.1.1] at he
    by_cases hx : x = []
    · rw [if_pos (by cases hw : w.exists <;> simp_all)]; simp [hx]
    · rw [if_neg (by rw [he.2 hx]; simp)]; simp [hx, opName]
  | missing hs ht =>
    rw [queryMatches_stands hs ht]
    unfold queryCompare
    rw [if_pos]
    have he := exists_json (v := w)
    rw [h.1.1] at he
    cases hw : w.exists <;> simp_all
  | string hs ht hx hb =>
    obtain ⟨k1, k2, _, _⟩ := content_value h hx
    obtain ⟨rh', ho, e⟩ := stands_operand hs
    have hne : x ≠ [] := by obtain ⟨_, _, rfl, _⟩ := hx; simp
    obtain ⟨b', q1, q2⟩ := C15_string_exact k1 (h.exists hne) k2 ho ht _
    rw [e _ _ ht, opName_some, q1]
    have : (b' = true ↔ b = true) := q2.trans hb.symm
    cases b <;> cases b' <;> simp_all
  | number hs ht hx h1 h2 g1 g2 g3 =>
    obtain ⟨k1, _, _, _, k2⟩ := number_value h hx
    obtain ⟨rh', ho, e⟩ := stands_operand hs
    rw [e _ _ ht, opName_some, C15_number k1 (h.exists (numLit_kindOf hx).1) k2 ho ht]
    rw [floatOf_iff] at h1 h2
    subst h1; subst h2
    rw [← lt_below] at g1 g3
    rw [← eq_equal] at g2
    rw [Bool.eq_iff_iff.2 g1, Bool.eq_iff_iff.2 g2, Bool.eq_iff_iff.2 g3]
  | bool x hs ht =>
    rw [queryMatches_stands hs ht]
    unfold queryCompare
    rw [if_neg (by rw [h.exists (by cases x <;> simp [boolText])]; simp), if_neg (by simp [opName]; rename_i op _; cases op <;> simp [Op.name]),
      bool_value x h, onBool_eq]
    cases x <;> rfl
  | other hs ht hne hx =>
    have hk := noScalar_value h hx
    rw [queryMatches_stands hs ht]
    unfold queryCompare
    rw [if_neg (by rw [h.exists hne]; simp), if_neg (by simp [opName]; rename_i op _; cases op <;> simp [Op.name])]
    rcases hk with hk | hk | hk <;> rw [hk]
  | truth hs ht =>
    unfold queryMatches
    rw [queryRpv_stands hs]
    simp only [ok_bind, if_true, truth_ok h ht]
    rename_i op r t
    rw [onBool_eq]
    unfold queryCompare
    rw [if_neg (by cases t <;> decide), if_neg (by simp [opName]; cases op <;> simp [Op.name])]
    cases t <;> rfl

end Gjson
