import Verif.Lemmas.Lead
import Verif.Lemmas.Layout
import Verif.Lemmas.UglyDoc
/-
Blanks around a text that is no array or object do not matter to any path.
-/
namespace Gjson
open Spec

theorem start_scalar {v : Bytes} (h : IsValue v) (hk : kindOf v ≠ .object ∧ kindOf v ≠ .array) (w : Bytes) (L : Nat) (p : Path) :
    gStart get L p (v ++ w) = .ok (Value.default, p) := by
  obtain ⟨c, q, rfl, hs⟩ := IsValue.cons h
  have h1 := hs.not_skip.1
  rw [List.cons_append, gStart, if_neg (fun hx => h1 (.inl hx)), if_neg, if_neg]
  · rintro rfl; exact hk.2 (by simp [kindOf])
  · rintro rfl; exact hk.1 (by simp [kindOf])

theorem modApply_scalar {v w : Bytes} (h : IsValue v) (hk : kindOf v ≠ .object ∧ kindOf v ≠ .array) (hw : Ws w) (n arg : Bytes) :
    RelRes (fun x y => SameValue (pParse 0 x) (pParse 0 y)) (modApply get n (v ++ w) arg) (modApply get n v arg) := by
  have e1 : pParse 0 (v ++ w) = leafVal (some 0) v := pParse_scalar h (Follow.ws' hw) hk 0
  have e2 : pParse 0 v = leafVal (some 0) v := by have := pParse_scalar (r := []) h .nil hk 0; rwa [List.append_nil] at this
  have hp : pParse 0 (v ++ w) = pParse 0 v := e1.trans e2.symm
  have hna : (pParse 0 v).kind ≠ .array := by
    rw [e2, leafVal_kind (isValue_ne_nil h)]; exact hk.2
  have hself : RelRes (fun x y => SameValue (pParse 0 x) (pParse 0 y)) (.ok (v ++ w)) (.ok v) := .ok (hp ▸ .refl _)
  have heq : ∀ {x y : Res Bytes}, x = y → RelRes (fun x y => SameValue (pParse 0 x) (pParse 0 y)) x y := by
    rintro x _ rfl
    cases x with
    | error e => exact .error e
    | ok x => exact .ok (.refl _)
  have hd : Denotes v (.leaf v) := .leaf h hk.1 hk.2
  have hpad : Padded v (v ++ w) := ⟨[], w, Ws.nil, hw, rfl⟩
  have hpad' : Padded v v := padded_self v
  unfold modApply
  split
  · exact hself
  split
  · refine heq ?_
    unfold modReverse
    simp only [parse_eq, ok_bind, hp]
  split
  · refine heq ?_
    unfold modUgly
    rw [ugly_eq, ugly_eq, pUgly_padded hd hpad, pUgly_padded hd hpad']
  split
  · refine heq ?_
    unfold modPretty pretty
    have : ∀ o, prettyOptions (v ++ w) o = prettyOptions v o := fun o => by
      rw [prettyOptions_layout hd hpad (by simp [Doc.height, MAX_DEPTH]), prettyOptions_layout hd hpad' (by simp [Doc.height, MAX_DEPTH])]
    simp only [this]
  split
  · unfold modValid
    rw [valid_eq_pText, valid_eq_pText, (pText_iff (v ++ w)).2 ⟨[], v, w, rfl, Ws.nil, hw, h⟩, (pText_iff v).2 ⟨[], v, [], by simp, Ws.nil, Ws.nil, h⟩]
    exact hself
  split
  · unfold modFlatten modFlattenN
    simp only [parse_eq, ok_bind, hp]
    rw [if_pos hna, if_pos hna]
    exact hself
  split
  · unfold modJoin
    simp only [parse_eq, ok_bind, hp]
    rw [if_pos hna, if_pos hna]
    exact hself
  · exact .ok (.refl _)

/-- Blanks behind a value that is no array or object do not matter to any path. -/
theorem get_trail {v w : Bytes} (h : IsValue v) (hk : kindOf v ≠ .object ∧ kindOf v ≠ .array) (hw : Ws w) (path : Bytes) :
    SameRes (get (v ++ w) path) (get v path) := by
  refine get_place (fun p => ?_) (fun p => ?_) (modApply_scalar h hk hw) path
  · have := start_scalar h hk [] v.length p
    rw [List.append_nil] at this
    rw [start_scalar h hk, this]
    exact .ok (sameX_refl _)
  · have e1 : ∀ i, toks i (v ++ w) = [leafVal (some i) v] := fun i => by
      rw [toks_value h (Follow.ws' hw)]
      have := toks_ws (s := []) hw (i + v.length)
      rw [List.append_nil, toks_nil] at this
      rw [this]
    have e2 : ∀ i, toks i v = [leafVal (some i) v] := fun i => by
      have := toks_value (i := i) (r := []) h .nil
      rwa [List.append_nil, toks_nil] at this
    unfold gArr eachToks
    simp only [if_true]
    refine gArrVals_alike p (aligned_alike_prov ?_ (fun v hv => (toks_prov _ _ v hv).oneText)
      (fun v hv => (toks_prov _ _ v hv).oneText))
    rw [e1, e2]
    exact .cons (sameValue_leaf _ _ _) .nil

end Gjson
