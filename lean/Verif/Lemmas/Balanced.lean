import Verif.Lemmas.JsonVal
/-
Text with balanced brackets, as `scan_squash` sees it.
-/
namespace Gjson
open Spec

theorem not_sqTok {c : UInt8} (h : c ∉ bracketSpecial) : ¬ SqTok c := by
  simp only [bracketSpecial] at h
  unfold SqTok StrTok OpenTok CloseTok
  grind

theorem openTok_of {c : UInt8} (h : c ∈ b!"([{") : OpenTok c := by unfold OpenTok; grind
theorem closeTok_of {c : UInt8} (h : c ∈ b!")]}") : CloseTok c := by unfold CloseTok; grind

theorem sq_quoted {b : Bytes} (h : QuotedBody b) (d : Nat) (s : Bytes) :
    sq d true (b ++ c! '"' :: s) = push1 (b ++ [c! '"']) (sq d false s) := by
  induction h with
  | nil => rw [List.nil_append, sq.eq_def]; simp
  | @plain c r h1 h2 _ ih =>
    rw [List.cons_append, sq.eq_def]
    simp only [h1, h2, if_false]
    rw [ih, push1_push1]; rfl
  | @esc e r _ ih =>
    rw [List.cons_append, List.cons_append, sq]
    rw [if_neg (by decide), if_pos rfl, ih, push1_push1]; rfl

theorem sq_bal {b : Bytes} (h : Balanced b) : ∀ (d : Nat), 1 ≤ d → ∀ (s : Bytes),
    sq d false (b ++ s) = push1 b (sq d false s) := by
  induction h with
  | nil => intro d _ s; simp
  | @plain c r h1 _ ih =>
    intro d hd s
    have : c :: r ++ s = [c] ++ (r ++ s) := rfl
    rw [this, sq_plain (by intro x hx; rw [List.mem_singleton.1 hx]; exact not_sqTok h1), ih d hd, push1_push1]
    rfl
  | @esc e r _ ih =>
    intro d hd s
    rw [List.cons_append, List.cons_append, sq]
    rw [if_neg (by decide), if_neg (by unfold OpenTok; decide), if_neg (by unfold CloseTok; decide), if_pos rfl,
      ih d hd, push1_push1]
    rfl
  | @str b r hb _ ih =>
    intro d hd s
    have e : c! '"' :: (b ++ c! '"' :: r) ++ s = c! '"' :: (b ++ c! '"' :: (r ++ s)) := by simp
    rw [e, sq.eq_def]
    simp only [if_true]
    rw [sq_quoted hb, ih d hd, push1_push1, push1_push1]
    congr 1; simp
  | @group o c b r ho hc _ _ ih1 ih2 =>
    intro d hd s
    have ho := openTok_of ho
    have hc := closeTok_of hc
    have e : o :: (b ++ c :: r) ++ s = o :: (b ++ (c :: (r ++ s))) := by simp
    rw [e, sq.eq_def]
    simp only
    rw [if_neg (by unfold OpenTok at ho; grind), if_pos ho, ih1 (d + 1) (by omega), sq.eq_def (d + 1) false (c :: _)]
    simp only
    rw [if_neg (by unfold CloseTok at hc; grind), if_neg (by unfold CloseTok at hc; unfold OpenTok; grind), if_pos hc,
      if_neg (by omega), Nat.add_sub_cancel, ih2 d hd]
    simp only [push1_push1]
    congr 1

theorem sq_group {b : Bytes} (h : Balanced b) {c : UInt8} (hc : CloseTok c) (r : Bytes) :
    sq 1 false (b ++ c :: r) = some (b ++ [c], r) := by
  rw [sq_bal h 1 (by omega), sq.eq_def]
  simp only
  rw [if_neg (by unfold CloseTok at hc; grind), if_neg (by unfold CloseTok at hc; unfold OpenTok; grind), if_pos hc,
    if_pos trivial]
  rfl

/-- `scan_squash` jumps over a balanced group. -/
theorem scanSquash_group {json : Bytes} {i : Nat} {o c : UInt8} {b r : Bytes} (h : At json i (o :: (b ++ c :: r)))
    (hb : Balanced b) (hc : CloseTok c) :
    scanSquash json i = .ok (o :: (b ++ [c]), i + (o :: (b ++ [c])).length) ∧ At json (i + (o :: (b ++ [c])).length) r := by
  have := scanSquash_at h
  rw [sq_group hb hc] at this
  exact this

theorem Spec.Balanced.append {a b : Bytes} (ha : Balanced a) (hb : Balanced b) : Balanced (a ++ b) := by
  induction ha with
  | nil => exact hb
  | plain h _ ih => exact .plain h ih
  | esc _ ih => exact .esc ih
  | @str x r h _ ih =>
    have : c! '"' :: (x ++ c! '"' :: r) ++ b = c! '"' :: (x ++ c! '"' :: (r ++ b)) := by simp
    rw [this]; exact .str h ih
  | @group o c x r h1 h2 h3 _ _ ih =>
    have : o :: (x ++ c :: r) ++ b = o :: (x ++ c :: (r ++ b)) := by simp
    rw [this]; exact .group h1 h2 h3 ih

theorem Spec.Balanced.pass {b : Bytes} (h : Balanced b) : SqPass b := fun d r => sq_bal h (d + 1) (by omega) r

theorem quotedBody_str {b : Bytes} (h : StrBody b) : QuotedBody b := by
  induction h with
  | nil => exact .nil
  | plain _ h1 h2 _ ih => exact .plain h1 h2 ih
  | esc _ _ ih => exact .esc ih
  | uni h1 h2 h3 h4 _ ih =>
    have hx : ∀ {c : UInt8}, IsHex c → c ≠ c! '"' ∧ c ≠ c! '\\' := by intro c hc; unfold IsHex at hc; grind
    exact .esc (.plain (hx h1).1 (hx h1).2 (.plain (hx h2).1 (hx h2).2 (.plain (hx h3).1 (hx h3).2 (.plain (hx h4).1 (hx h4).2 ih))))

theorem balanced_str {b : Bytes} (h : StrLit b) : Balanced b := by
  obtain ⟨x, hx, rfl⟩ := h
  exact .str (quotedBody_str hx) .nil

theorem leftQuoted_body {i : Bool} {b : Bytes} (h : LeftQuoted i b) : QuotedBody b := by
  induction h with
  | nil => exact .nil
  | plain h1 _ _ ih =>
    simp only [List.mem_cons, List.not_mem_nil, or_false, not_or] at h1
    exact .plain h1.1 h1.2.1 ih
  | esc _ ih => exact .esc ih

theorem leftText_balanced {i : Bool} {b : Bytes} (h : LeftText i b) : Balanced b := by
  induction h with
  | nil => exact .nil
  | plain h1 _ _ ih => exact .plain h1 ih
  | esc _ ih => exact .esc ih
  | str h _ ih => exact .str (leftQuoted_body h) ih
  | paren _ _ ih1 ih2 => exact .group (by decide) (by decide) ih1 ih2
  | bracket h1 h2 _ _ ih1 ih2 => exact .group (by simp at h1 ⊢; grind) (by simp at h2 ⊢; grind) ih1 ih2

theorem balanced_plain {b : Bytes} (h : ∀ c ∈ b, c ∉ bracketSpecial) : Balanced b := by
  induction b with
  | nil => exact .nil
  | cons c r ih => exact .plain (h c (by simp)) (ih fun x hx => h x (by simp [hx]))

theorem leftText_plain {i : Bool} {b : Bytes} (h : ∀ c ∈ b, c ∉ bracketSpecial ∧ c ∉ b!"<>=!%") : LeftText i b := by
  induction b with
  | nil => exact .nil
  | cons c r ih => exact .plain (h c (by simp)).1 (.inr (h c (by simp)).2) (ih fun x hx => h x (by simp [hx]))

/-- A plain path is the left side of a query. -/
theorem Spec.QueryLeft.plain {lh : Bytes} (h : ∀ c ∈ lh, c ∉ bracketSpecial ∧ c ∉ b!"<>=!%@") (ht : Trimmed lh) : QueryLeft lh := by
  refine ⟨leftText_plain fun c hc => ⟨(h c hc).1, fun h' => (h c hc).2 ?_⟩, ht, fun hp => (h (c! '@') (hp.pretty.subset (by simp))).2 (by decide)⟩
  simp only [List.mem_cons, List.not_mem_nil, or_false] at h' ⊢; grind

/-- A string literal is the right side of a query. -/
theorem Spec.QueryRight.str {rh : Bytes} (h : StrLit rh) : QueryRight rh := by
  refine ⟨balanced_str h, ?_⟩
  obtain ⟨x, _, rfl⟩ := h
  refine ⟨by simp, ?_⟩
  rw [show c! '"' :: (x ++ b!"\"") = (c! '"' :: x) ++ b!"\"" by simp, List.getLast?_append]
  simp

/-- Plain text is the right side of a query. -/
theorem Spec.QueryRight.plain {rh : Bytes} (h : ∀ c ∈ rh, c ∉ bracketSpecial) (ht : Trimmed rh) : QueryRight rh := ⟨balanced_plain h, ht⟩

end Gjson
