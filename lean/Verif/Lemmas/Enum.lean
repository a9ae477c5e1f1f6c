import Verif.Lemmas.ForEach
import Verif.Lemmas.JsonVal
/-
`parse` and `for_each` on well-formed JSON.
-/
namespace Gjson
open Spec

theorem ws_le {c : UInt8} (h : IsWs c) : c ≤ c! ' ' := by unfold IsWs at h; grind

theorem leafTok_str {t r : Bytes} (h : StrLit t) : leafTok (t ++ r) = (some (t, infoOf t), r) := by
  obtain ⟨b, hb, rfl⟩ := h
  have e : (c! '"' :: (b ++ [c! '"'])) ++ r = c! '"' :: (b ++ c! '"' :: r) := by simp
  rw [e]
  simp only [leafTok, infoOf]
  rw [if_pos trivial, if_pos trivial, qStr_body hb]
  simp

theorem toks_ws {w s : Bytes} (h : Ws w) : ∀ i, toks i (w ++ s) = toks (i + w.length) s := by
  induction w with
  | nil => intro i; rfl
  | cons c w ih =>
    intro i
    have h1 : IsWs c := h c (by simp)
    rw [List.cons_append, toks_skip (.inl (ws_le h1)), ih (fun x hx => h x (by simp [hx]))]
    congr 1
    simp; omega

theorem StartsValue.not_skip {c : UInt8} (h : StartsValue c) :
    ¬ (c ≤ c! ' ' ∨ c = c! ',' ∨ c = c! ':') ∧ ¬ (c = c! '}' ∨ c = c! ']') := by
  unfold StartsValue IsDigit at h
  grind (splits := 30)

theorem toks_tokens {i : Nat} {v r : Bytes} (hc : ∃ c q, v = c :: q ∧ StartsValue c)
    (h : leafTok (v ++ r) = (some (v, infoOf v), r)) :
    toks i (v ++ r) = leafVal (some i) v :: toks (i + v.length) r := by
  obtain ⟨c, q, rfl, hs⟩ := hc
  have := hs.not_skip
  rw [List.cons_append] at h ⊢
  rw [toks_tok this.1 this.2, h]
  simp only [tokVal, mkVal_exists]
  rw [if_pos (by simp)]
  have e : i + ((c :: (q ++ r)).length - r.length) = i + (c :: q).length := by simp; omega
  rw [e]
  rfl

theorem toks_value {i : Nat} {v r : Bytes} (h : IsValue v) (hr : Follow r) :
    toks i (v ++ r) = leafVal (some i) v :: toks (i + v.length) r :=
  toks_tokens (IsValue.cons h) (leafTok_value h hr)

theorem toks_str {i : Nat} {v r : Bytes} (h : StrLit v) :
    toks i (v ++ r) = leafVal (some i) v :: toks (i + v.length) r :=
  toks_tokens (IsValue.cons (.str h)) (leafTok_str h)

/-- The values of an element list starting at index `i`. -/
def elemVals (i : Nat) : List Elem → List Value
  | [] => []
  | e :: es => leafVal (some (i + e.pre.length)) e.val :: elemVals (i + (e.text.length + 1)) es

/-- The keys and values of a member list starting at index `i`. -/
def memberVals (i : Nat) : List Member → List (Value × Value)
  | [] => []
  | m :: ms =>
    (leafVal (some (i + m.pre.length)) m.key,
      leafVal (some (i + m.pre.length + m.key.length + m.mid1.length + 1 + m.mid2.length)) m.val) ::
      memberVals (i + (m.text.length + 1)) ms

theorem toks_elem {i : Nat} {e : Elem} {r : Bytes} (hw : e.Wf) (hv : IsValue e.val) (hr : Follow r) :
    toks i (e.text ++ r) = leafVal (some (i + e.pre.length)) e.val :: toks (i + e.text.length) r := by
  unfold Elem.text
  rw [List.append_assoc, List.append_assoc, toks_ws hw.1, toks_value hv (Follow.ws hw.2 hr), toks_ws hw.2]
  congr 2
  simp; omega

theorem toks_elems {es : List Elem} {c : UInt8} {r : Bytes} (hc : c = c! '}' ∨ c = c! ']')
    (hw : ∀ e ∈ es, e.Wf) (hv : ∀ e ∈ es, IsValue e.val) :
    ∀ i, toks i (elemsText es ++ c :: r) = elemVals i es := by
  induction es with
  | nil => intro i; exact toks_close hc
  | cons e es ih =>
    intro i
    have h1 := hw e (by simp)
    have h2 := hv e (by simp)
    have ih' := ih (fun x hx => hw x (List.mem_cons_of_mem _ hx)) (fun x hx => hv x (List.mem_cons_of_mem _ hx))
    cases es with
    | nil =>
      simp only [elemsText, elemVals]
      rw [toks_elem h1 h2 (.cons (by grind)), toks_close hc]
    | cons e' es =>
      have e1 : elemsText (e :: e' :: es) ++ c :: r = e.text ++ (c! ',' :: (elemsText (e' :: es) ++ c :: r)) := by
        simp [elemsText]
      rw [e1, toks_elem h1 h2 .comma, toks_skip (by decide), ih', elemVals.eq_2 i e]
      rfl

theorem toks_member {i : Nat} {m : Member} {r : Bytes} (hw : m.Wf) (hv : IsValue m.val) (hr : Follow r) :
    toks i (m.text ++ r) = leafVal (some (i + m.pre.length)) m.key ::
      leafVal (some (i + m.pre.length + m.key.length + m.mid1.length + 1 + m.mid2.length)) m.val ::
        toks (i + m.text.length) r := by
  obtain ⟨a1, a2, a3, a4, a5⟩ := hw
  have e1 : m.text ++ r = m.pre ++ (m.key ++ (m.mid1 ++ (c! ':' :: (m.mid2 ++ (m.val ++ (m.post ++ r)))))) := by
    simp [Member.text]
  rw [e1, toks_ws a1, toks_str a2, toks_ws a3, toks_skip (by decide), toks_ws a4,
    toks_value hv (Follow.ws a5 hr), toks_ws a5]
  congr 3
  simp [Member.text]; omega

/-- All keys and values in order. -/
def flatPairs : List (Value × Value) → List Value
  | [] => []
  | (a, b) :: r => a :: b :: flatPairs r

theorem pairUp_flat (l : List (Value × Value)) : pairUp (flatPairs l) = l := by
  induction l with
  | nil => rfl
  | cons x l ih => obtain ⟨a, b⟩ := x; simp [flatPairs, pairUp, ih]

theorem toks_members {ms : List Member} {c : UInt8} {r : Bytes} (hc : c = c! '}' ∨ c = c! ']')
    (hw : ∀ e ∈ ms, e.Wf) (hv : ∀ e ∈ ms, IsValue e.val) :
    ∀ i, toks i (membersText ms ++ c :: r) = flatPairs (memberVals i ms) := by
  induction ms with
  | nil => intro i; exact toks_close hc
  | cons e es ih =>
    intro i
    have h1 := hw e (by simp)
    have h2 := hv e (by simp)
    have ih' := ih (fun x hx => hw x (List.mem_cons_of_mem _ hx)) (fun x hx => hv x (List.mem_cons_of_mem _ hx))
    cases es with
    | nil =>
      simp only [membersText, memberVals, flatPairs]
      rw [toks_member h1 h2 (.cons (by grind)), toks_close hc]
    | cons e' es =>
      have e1 : membersText (e :: e' :: es) ++ c :: r =
          e.text ++ (c! ',' :: (membersText (e' :: es) ++ c :: r)) := by
        simp [membersText]
      rw [e1, toks_member h1 h2 .comma, toks_skip (by decide), ih', memberVals.eq_2 i e]
      rfl

theorem elemVals_json (es : List Elem) : ∀ i, (elemVals i es).map Value.json = es.map Elem.val := by
  induction es with
  | nil => intro i; rfl
  | cons e es ih => intro i; simp [elemVals, leafVal_json, ih]

theorem elemVals_kind (es : List Elem) (hv : ∀ e ∈ es, IsValue e.val) :
    ∀ i, (elemVals i es).map Value.kind = es.map (fun e => kindOf e.val) := by
  induction es with
  | nil => intro i; rfl
  | cons e es ih =>
    intro i
    simp only [elemVals, List.map_cons]
    rw [leafVal_kind (IsValue.ne_nil (hv e (by simp))), ih (fun x hx => hv x (List.mem_cons_of_mem _ hx))]

theorem Ws.toks_close {w : Bytes} {c : UInt8} {r : Bytes} (h : Ws w) (hc : c = c! '}' ∨ c = c! ']') (i : Nat) :
    toks i (w ++ c :: r) = [] := by
  rw [toks_ws h, Gjson.toks_close hc]

/-- The value of an array text read as a list of values: what `for_each` sees. -/
theorem IsArray.toks {t r : Bytes} {vs : List Bytes} (h : IsArray t vs) (i : Nat) :
    ∃ q, t ++ r = c! '[' :: q ∧ ∃ ps : List Nat, ps.length = vs.length ∧
      Gjson.toks (i + 1) q = List.zipWith (fun p v => leafVal (some p) v) ps vs := by
  rcases h with ⟨w, hw, rfl, rfl⟩ | ⟨es, hne, hwf, hv, rfl, rfl⟩
  · exact ⟨w ++ c! ']' :: r, by simp, [], rfl, by rw [Ws.toks_close hw (.inr rfl)]; rfl⟩
  · refine ⟨elemsText es ++ c! ']' :: r, by simp, ?_⟩
    rw [toks_elems (.inr rfl) hwf hv]
    generalize i + 1 = k
    clear hne hwf hv
    induction es generalizing k with
    | nil => exact ⟨[], rfl, rfl⟩
    | cons e es ih =>
      obtain ⟨ps, h1, h2⟩ := ih (k + (e.text.length + 1))
      exact ⟨(k + e.pre.length) :: ps, by simp [h1], by simp [elemVals, h2]⟩

/-- `parse` skips white space. -/
theorem pParse_ws {w s : Bytes} (h : Ws w) : ∀ i, pParse i (w ++ s) = pParse (i + w.length) s := by
  induction w with
  | nil => intro i; rfl
  | cons c w ih =>
    intro i
    have h1 : IsWs c := h c (by simp)
    rw [List.cons_append, pParse, if_pos (ws_le h1), ih (fun x hx => h x (by simp [hx]))]
    congr 1
    simp; omega

/-- `parse` of a scalar. -/
theorem pParse_scalar {v r : Bytes} (h : IsValue v) (hr : Follow r) (hk : kindOf v ≠ .object ∧ kindOf v ≠ .array)
    (i : Nat) : pParse i (v ++ r) = leafVal (some i) v := by
  have h1 := leafTok_value h hr
  obtain ⟨c, q, rfl, hs⟩ := IsValue.cons h
  have hn := hs.not_skip
  rw [List.cons_append] at h1 ⊢
  have hk1 : c ≠ c! '{' ∧ c ≠ c! '[' := by
    constructor
    · rintro rfl; exact hk.1 rfl
    · rintro rfl; exact hk.2 rfl
  unfold pParse
  rw [if_neg (by grind), if_neg hk1.1, if_neg hk1.2, if_pos (by unfold StartsValue IsDigit at hs; grind), h1]
  rfl

/-- `parse` of a container keeps the text to the end. -/
theorem pParse_cont {v r : Bytes} (h : IsValue v) (hk : kindOf v = .object ∨ kindOf v = .array)
    (i : Nat) : pParse i (v ++ r) = mkVal (v ++ r) (some i) (infoOf v ||| INFO_FOG) ∧
      (infoOf v = INFO_OBJECT ∨ infoOf v = INFO_ARRAY) := by
  obtain ⟨c, q, rfl, hs⟩ := IsValue.cons h
  have hn := hs.not_skip
  have hk1 : c = c! '{' ∨ c = c! '[' := by
    simp only [kindOf] at hk
    grind
  rw [List.cons_append]
  unfold pParse
  rw [if_neg (by grind)]
  rcases hk1 with rfl | rfl
  · rw [if_pos rfl]; exact ⟨rfl, .inl rfl⟩
  · rw [if_neg (by decide), if_pos rfl]; exact ⟨rfl, .inr rfl⟩

end Gjson
