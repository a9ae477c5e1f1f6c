import Verif.Props.Compare
/-
C45: comparing by truth value. A right hand side `~true` or `~false` compares
`bool()` of the value, which a missing value has too.
-/
namespace Gjson
open Spec

/-- What the code decides for two truth values: as the order `false < true` says,
but for `true <= true` and `false >= false` (see `C15_bool_false`). -/
def truthHolds (op : Op) (x y : Bool) : Bool :=
  op.holds (!x && y) (x == y) (x && !y) && !(op == .le && x && y) && !(op == .ge && !x && !y)

theorem queryMatches_tilde {rh r : Bytes} (hr : Operand rh (c! '~' :: r)) {v : Value} {x : Bool} (hx : v.bool = .ok x) (op : Bytes) :
    queryMatches v op rh = queryCompare (boolValue x) op r := by
  unfold queryMatches
  rw [queryRpv_operand hr]
  simp only [ok_bind, if_true, hx]

/-- C45: `~true` and `~false` compare `bool()` of the value, for every operator. -/
theorem C45_decide {rh : Bytes} {y : Bool} (hr : Operand rh (c! '~' :: boolText y)) {v : Value} {x : Bool} (hx : v.bool = .ok x)
    (op : Op) : queryMatches v op.name rh = .ok (truthHolds op x y) := by
  rw [queryMatches_tilde hr hx]
  cases x <;> cases y <;> cases op <;> rfl

/-- C45: in particular `=` is equality and `!=` its complement. -/
theorem C45_equal {rh : Bytes} {y : Bool} (hr : Operand rh (c! '~' :: boolText y)) {v : Value} {x : Bool} (hx : v.bool = .ok x) :
    queryMatches v Op.eq.name rh = .ok (x == y) ∧ queryMatches v Op.ne.name rh = .ok (x != y) := by
  rw [C45_decide hr hx, C45_decide hr hx]
  cases x <;> cases y <;> exact ⟨rfl, rfl⟩

/-- C45: without an operator every value is accepted. -/
theorem C45_tilde_any {rh r : Bytes} (hr : Operand rh (c! '~' :: r)) {v : Value} {x : Bool} (hx : v.bool = .ok x) :
    queryMatches v [] rh = .ok true := by
  rw [queryMatches_tilde hr hx]
  cases x <;> rfl

/-- C15 for booleans, all operators and cases. -/
theorem C15_bool_exact {v : Value} {rh : Bytes} {x y : Bool} (hk : v.kind = if x then .true else .false)
    (he : v.exists = true) (hr : Operand rh (boolText y)) (op : Op) : queryMatches v op.name rh = .ok (truthHolds op x y) := by
  have ht : NoTilde (boolText y) := by cases y <;> intro c hc <;> simp [boolText] at hc <;> subst hc <;> decide
  rw [queryMatches_plain hr ht]
  unfold queryCompare
  simp only [he, Bool.not_true, Bool.false_eq_true, if_false]
  rw [if_neg (by cases op <;> simp [Op.name]), hk]
  cases x <;> cases y <;> cases op <;> rfl

/-- The truth value of what a query looks at in the element `e`. -/
def TruthOf (lh e : Bytes) (b : Bool) : Prop := ∃ v, (if lh = [] then parse e else get e lh) = .ok v ∧ v.bool = .ok b

/-- C45: it is always defined. -/
theorem C45_truth_defined {lh e : Bytes} (hl : QueryLeft lh) (he : IsValue e) :
    ∃ b, TruthOf lh e b ∧ ∀ b', TruthOf lh e b' → b' = b := by
  have hn : pk e := jsonText_pk ⟨[], e, [], by simp, by simp [Ws], by simp [Ws], he⟩
  obtain ⟨c, v, h1, h2⟩ := elemTest_total (rh := b!"~true") b!"=" hl hn
  have hr : Operand b!"~true" (c! '~' :: boolText true) := .inr ⟨by decide, rfl⟩
  have hb : ∃ b, v.bool = .ok b := by
    cases h : v.bool with
    | ok b => exact ⟨b, rfl⟩
    | error e =>
      unfold queryMatches at h2
      rw [queryRpv_operand hr] at h2
      simp only [ok_bind, if_true, h, error_bind] at h2
      cases h2
  obtain ⟨b, hb⟩ := hb
  refine ⟨b, ⟨v, h1, hb⟩, ?_⟩
  rintro b' ⟨v', h3, h4⟩
  rw [h1] at h3; cases h3
  rw [hb] at h4; cases h4; rfl

theorem queryText_tilde {lh : Bytes} (hl : QueryLeft lh) (y : Bool) :
    QueryText (lh ++ (b!"==~" ++ boolText y)) lh (some .eq) (c! '~' :: boolText y) := by
  have := QueryText.compare (w1 := []) (w2 := []) (w3 := []) (w4 := []) (o := b!"==") hl .eqEq
    (rh := c! '~' :: boolText y) (.plain (by cases y <;> decide) (by unfold Trimmed; cases y <;> decide)) (by simp [Blank]) (by simp [Blank])
    (by simp [Blank]) (by simp [Blank]) (by simp)
  simpa using this

/-- C45: `#(lh==~true)#` is the array of the elements for which `bool()` of the
value found by `lh` is true, `#(lh==~false)#` of the others, also those where `lh`
finds nothing: each element is in one of the two. -/
theorem C45_split {doc pre lh : Bytes} {vs : List Bytes} (h : Sequence doc pre vs) (hl : QueryLeft lh) :
    ∃ truth : Bytes → Bool, (∀ e ∈ vs, TruthOf lh e (truth e)) ∧
      ∃ w1 w2, get doc (pre ++ (b!"#(" ++ (lh ++ b!"==~true)#"))) = .ok w1 ∧ w1.json = arrayText (vs.filter truth) ∧
        get doc (pre ++ (b!"#(" ++ (lh ++ b!"==~false)#"))) = .ok w2 ∧ w2.json = arrayText (vs.filter fun e => !truth e) := by
  classical
  have hd : ∀ e ∈ vs, TruthOf lh e (decide (TruthOf lh e true)) := by
    intro e he
    obtain ⟨b, h1, h2⟩ := C45_truth_defined hl (Sequence.mem_value h e he)
    cases b with
    | true => simpa only [decide_eq_true h1] using h1
    | false => simpa only [decide_eq_false (fun h => Bool.noConfusion (h2 true h))] using h1
  refine ⟨fun e => decide (TruthOf lh e true), hd, ?_⟩
  have hq : ∀ y : Bool, ∀ e ∈ vs, QueryHolds lh (some .eq) (c! '~' :: boolText y) e (decide (TruthOf lh e true) == y) := by
    intro y e he
    obtain ⟨v, h1, h2⟩ := hd e he
    exact ⟨v, h1, (C45_equal (.inr ⟨by simp, rfl⟩) h2).1⟩
  obtain ⟨w1, a1, _, _, a2, _⟩ := C14_all h (queryText_tilde hl true) (hq true)
  obtain ⟨w2, b1, _, _, b2, _⟩ := C14_all h (queryText_tilde hl false) (hq false)
  refine ⟨w1, w2, ?_, ?_, ?_, ?_⟩
  · rw [← a1]; simp [boolText]
  · rw [a2]; simp
  · rw [← b1]; simp [boolText]
  · rw [b2]; simp

/-- C45: a missing value counts as false. -/
theorem C45_missing {lh e : Bytes} (h : get e lh = .ok Value.default) (hne : lh ≠ []) : TruthOf lh e false :=
  ⟨Value.default, by rw [if_neg hne]; exact h, by decide +kernel⟩

/-- Rows like those of test.rs:326-347, where the second query is commented out. -/
def sampleVals : Bytes := b!"[{\"a\":1,\"b\":\"t\"},{\"a\":2,\"b\":1},{\"a\":3,\"b\":\"0\"},{\"a\":4}]"

example : QueryLeft b!"b" ∧ (get sampleVals b!"#(b==~true)#.a" >>= fun v => .ok v.json) = .ok b!"[1,2]" ∧
    (get sampleVals b!"#(b==~false)#.a" >>= fun v => .ok v.json) = .ok b!"[3,4]" :=
  ⟨.plain (by decide) (by unfold Trimmed; decide), by decide +kernel, by decide +kernel⟩

end Gjson
