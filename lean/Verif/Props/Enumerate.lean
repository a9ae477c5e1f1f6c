import Verif.Lemmas.Same
/-
C02 (parse), C27, C28 and the part of C40 about `parse`.
-/
namespace Gjson
open Spec

/-! ### C02 -/

/-- C02: `parse` returns a value for every byte string: no panic, no access out
of bounds, no endless loop (running out of fuel is an error value of the model). -/
theorem C02_parse_total (json : Bytes) : ∃ v, parse json = .ok v := ⟨_, parse_eq json⟩

/-! ### C27 -/

/-- C27 for any Value of kind Array, however it was obtained, whose text begins
with an array: `array()` is the list of its elements, in order, each with its
source text and kind and indistinguishable from the parsed element text, and
`each` visits exactly these until the callback says stop. -/
theorem C27_each_value (v : Value) (t r : Bytes) (vs : List Bytes) (h : IsArray t vs)
    (hk : v.kind = .array) (hj : v.json = t ++ r) :
    ∃ vals, v.array = .ok vals ∧ Aligned SameAsText vals vs ∧
      ∀ (σ : Type) (f : σ → Value → Value → Res (σ × Bool)) (st : σ),
        v.each f st = visit (fun st e => f st Value.default e) st vals := by
  obtain ⟨q, h1, h2⟩ := IsArray.vals (r := r) h 0
  rw [h1] at hj
  refine ⟨_, array_eq hj hk, h2, fun σ f st => ?_⟩
  rw [each_eq hj (.inr hk), hk, eachPairs, if_neg (by decide)]
  generalize toks 1 q = l
  induction l generalizing st with
  | nil => rfl
  | cons x l ih =>
    simp only [List.map_cons, visit]
    cases h : f st Value.default x with
    | error e => rfl
    | ok y => obtain ⟨st', m⟩ := y; simp only; rw [ih]

/-- C27: the same for `parse` of an array text with whitespace around it. -/
theorem C27_array_each (doc t : Bytes) (vs : List Bytes) (h : IsArray t vs) (hp : Padded t doc) :
    ∃ v vals, parse doc = .ok v ∧ v.kind = .array ∧ v.array = .ok vals ∧
      vals.map Value.json = vs ∧ vals.map Value.kind = vs.map kindOf ∧ Aligned SameAsText vals vs ∧
      ∀ (σ : Type) (f : σ → Value → Value → Res (σ × Bool)) (st : σ),
        v.each f st = visit (fun st e => f st Value.default e) st vals := by
  obtain ⟨w1, w2, hw1, hw2, rfl⟩ := hp
  obtain ⟨h1, h2⟩ := pParse_cont (r := w2) (IsArray.isValue h) (.inr (IsArray.kindOf h)) (0 + w1.length)
  have hinfo : infoOf t = INFO_ARRAY := by
    rcases h with ⟨w, hw, rfl, rfl⟩ | ⟨es, hne, hwf, hv, rfl, rfl⟩ <;> rfl
  have hk : (mkVal (t ++ w2) (some (0 + w1.length)) (infoOf t ||| INFO_FOG)).kind = .array := by
    rw [mkVal_kind, hinfo]; decide
  obtain ⟨vals, a1, a2, a3⟩ := C27_each_value _ t w2 vs h hk (mkVal_json _ _ _)
  refine ⟨_, vals, by rw [parse_eq, pParse_ws hw1, h1], hk, a1, ?_, ?_, a2, a3⟩
  · clear a1 a3 h h1 h2 hinfo hk
    induction a2 with
    | nil => rfl
    | cons h _ ih => simp only [List.map_cons, ih, h.1]
  · clear a1 a3 h h1 h2 hinfo hk
    induction a2 with
    | nil => rfl
    | cons h _ ih => simp only [List.map_cons, ih, h.2.1]

/-- Every valid array text is covered: a valid text is an array with some element
texts, an object with some members, or a scalar. -/
theorem C27_covers (t : Bytes) (h : IsValue t) (hk : kindOf t = .array) : ∃ vs, IsArray t vs := by
  cases h with
  | null => exact absurd hk (by decide)
  | «true» => exact absurd hk (by decide)
  | «false» => exact absurd hk (by decide)
  | str h => obtain ⟨b, _, rfl⟩ := h; simp [kindOf] at hk
  | num h =>
    obtain ⟨c, q, rfl, hs⟩ := NumLit.cons h
    simp only [kindOf] at hk
    rcases hs with hs | hs
    · subst hs; exact absurd hk (by decide)
    · unfold IsDigit at hs
      rw [if_neg (by grind), if_neg (by grind), if_neg (by grind), if_neg (by grind), if_neg (by grind),
        if_neg (by grind)] at hk
      exact absurd hk (by decide)
  | arrEmpty h => exact ⟨[], .inl ⟨_, h, rfl, rfl⟩⟩
  | arr h1 h2 h3 => exact ⟨_, .inr ⟨_, h1, h2, h3, rfl, rfl⟩⟩
  | objEmpty h => simp [kindOf] at hk
  | obj h1 h2 h3 => simp [kindOf] at hk

/-- A nested array with whitespace meets the hypotheses. -/
example : IsArray b!"[ 1,[2, 3] ]" [b!"1", b!"[2, 3]"] := by
  refine .inr ⟨[⟨b!" ", b!"1", []⟩, ⟨[], b!"[2, 3]", b!" "⟩], by simp, ?_, ?_, rfl, rfl⟩
  · intro e he; simp at he; rcases he with rfl | rfl <;> exact ⟨by decide, by decide⟩
  · have hn : ∀ d, IsDigit d → IsValue [d] := by
      intro d hd
      refine .num ⟨[], [d], [], [], rfl, .inl rfl, ?_, .inl rfl, .inl rfl⟩
      by_cases h : d = c! '0'
      · exact .inl (by rw [h])
      · exact .inr ⟨d, [], rfl, hd, h, by simp⟩
    intro e he
    simp at he
    rcases he with rfl | rfl
    · exact hn _ (by decide)
    · refine IsValue.arr (es := [⟨[], b!"2", []⟩, ⟨b!" ", b!"3", []⟩]) (by simp) ?_ ?_
      · intro e he; simp at he; rcases he with rfl | rfl <;> exact ⟨by decide, by decide⟩
      · intro e he; simp at he; rcases he with rfl | rfl <;> exact hn _ (by decide)

/-- Early stop, on a concrete text: the callback sees two elements. -/
example : (parse b!" [1,\"a\",null] " >>= fun v =>
    v.each (fun (st : List Bytes) _ e => .ok (st ++ [e.json], e.kind != .string)) []) =
    .ok [b!"1", b!"\"a\""] := by decide +kernel

/-! ### C28 -/

/-- C28 for any Value of kind Object, however it was obtained. -/
theorem C28_each_value (v : Value) (t r : Bytes) (kvs : List (Bytes × Bytes)) (h : IsObject t kvs)
    (hk : v.kind = .object) (hj : v.json = t ++ r) :
    ∃ pairs, Aligned SamePair pairs kvs ∧
      ∀ (σ : Type) (f : σ → Value → Value → Res (σ × Bool)) (st : σ),
        v.each f st = visit (fun st p => f st p.1 p.2) st pairs := by
  obtain ⟨q, h1, h2⟩ := IsObject.vals (r := r) h 0
  rw [h1] at hj
  refine ⟨_, h2, fun σ f st => ?_⟩
  rw [each_eq hj (.inl hk), hk, eachPairs, if_pos rfl]

/-- C28: `each` on a parsed object text visits exactly the (key, value) pairs in
order, with their source texts and kinds, until the callback says stop. -/
theorem C28_object_each (doc t : Bytes) (kvs : List (Bytes × Bytes)) (h : IsObject t kvs) (hp : Padded t doc) :
    ∃ v pairs, parse doc = .ok v ∧ v.kind = .object ∧
      pairs.map (fun p => (p.1.json, p.2.json)) = kvs ∧ Aligned SamePair pairs kvs ∧
      ∀ (σ : Type) (f : σ → Value → Value → Res (σ × Bool)) (st : σ),
        v.each f st = visit (fun st p => f st p.1 p.2) st pairs := by
  obtain ⟨w1, w2, hw1, hw2, rfl⟩ := hp
  obtain ⟨h1, h2⟩ := pParse_cont (r := w2) (IsObject.isValue h) (.inl (IsObject.kindOf h)) (0 + w1.length)
  have hinfo : infoOf t = INFO_OBJECT := by
    rcases h with ⟨w, hw, rfl, rfl⟩ | ⟨es, hne, hwf, hv, rfl, rfl⟩ <;> rfl
  have hk : (mkVal (t ++ w2) (some (0 + w1.length)) (infoOf t ||| INFO_FOG)).kind = .object := by
    rw [mkVal_kind, hinfo]; decide
  obtain ⟨pairs, a1, a2⟩ := C28_each_value _ t w2 kvs h hk (mkVal_json _ _ _)
  refine ⟨_, pairs, by rw [parse_eq, pParse_ws hw1, h1], hk, ?_, a1, a2⟩
  clear a2 h h1 h2 hinfo hk
  induction a1 with
  | nil => rfl
  | cons h _ ih => simp only [List.map_cons, ih, h.1.1, h.2.1]

/-- The callback sees keys and values of `{"a":1, "b" : [ ]}`. -/
example : (parse b!" {\"a\":1, \"b\" : [ ]} " >>= fun v =>
    v.each (fun (st : List (Bytes × Bytes)) k e => .ok (st ++ [(k.json, e.json)], true)) []) =
    .ok [(b!"\"a\"", b!"1"), (b!"\"b\"", b!"[ ]")] := by decide +kernel

/-- C28: every valid object text is covered. -/
theorem C28_covers (t : Bytes) (h : IsValue t) (hk : kindOf t = .object) : ∃ kvs, IsObject t kvs := by
  cases h with
  | null => exact absurd hk (by decide)
  | «true» => exact absurd hk (by decide)
  | «false» => exact absurd hk (by decide)
  | str h => obtain ⟨b, _, rfl⟩ := h; simp [kindOf] at hk
  | num h =>
    obtain ⟨c, q, rfl, hs⟩ := NumLit.cons h
    simp only [kindOf] at hk
    rcases hs with hs | hs
    · subst hs; exact absurd hk (by decide)
    · unfold IsDigit at hs
      rw [if_neg (by grind), if_neg (by grind), if_neg (by grind), if_neg (by grind), if_neg (by grind),
        if_neg (by grind)] at hk
      exact absurd hk (by decide)
  | arrEmpty h => simp [kindOf] at hk
  | arr h1 h2 h3 => simp [kindOf] at hk
  | objEmpty h => exact ⟨[], .inl ⟨_, h, rfl, rfl⟩⟩
  | obj h1 h2 h3 => exact ⟨_, .inr ⟨_, h1, h2, h3, rfl, rfl⟩⟩

/-! ### C40, the part about `valid` and `parse` -/

/-- C40: whitespace around a JSON text does not change what `valid` says, nor the
kind that `parse` reports; for a scalar every accessor of the parsed value is the
same and `json()` is exactly the scalar's text. -/
theorem C40_parse (t w1 w2 : Bytes) (h : IsValue t) (hw1 : Ws w1) (hw2 : Ws w2) :
    valid (w1 ++ (t ++ w2)) = .ok true ∧
    ∃ v v', parse (w1 ++ (t ++ w2)) = .ok v ∧ parse t = .ok v' ∧ v.kind = v'.kind ∧ v.kind = kindOf t ∧
      (kindOf t ≠ .object → kindOf t ≠ .array → v.json = t ∧ SameValue v v') := by
  refine ⟨by rw [valid_eq_pText, (pText_iff _).2 ⟨w1, t, w2, rfl, hw1, hw2, h⟩], ?_⟩
  by_cases hk : kindOf t = .object ∨ kindOf t = .array
  · obtain ⟨h1, h2⟩ := pParse_cont (r := w2) h hk (0 + w1.length)
    obtain ⟨h3, _⟩ := pParse_cont (r := []) h hk 0
    rw [List.append_nil] at h3
    have hkind : ∀ (s : Bytes) (i : Option Nat), (mkVal s i (infoOf t ||| INFO_FOG)).kind = kindOf t := by
      intro s i
      have := leafVal_kind (i := i) (isValue_ne_nil h)
      rw [← this, leafVal, mkVal_kind, mkVal_kind]
      rcases h2 with h2 | h2 <;> rw [h2] <;> decide
    refine ⟨_, _, by rw [parse_eq, pParse_ws hw1, h1], by rw [parse_eq, h3], by rw [hkind, hkind], hkind _ _,
      fun a b => absurd hk (by simp [a, b])⟩
  · rw [not_or] at hk
    have h1 := pParse_scalar (r := w2) h (Follow.ws' hw2) hk (0 + w1.length)
    have h3 := pParse_scalar (r := []) h .nil hk 0
    rw [List.append_nil] at h3
    refine ⟨_, _, by rw [parse_eq, pParse_ws hw1, h1], by rw [parse_eq, h3], ?_, leafVal_kind (isValue_ne_nil h),
      fun _ _ => ⟨leafVal_json _ _, sameValue_leaf _ _ _⟩⟩
    rw [leafVal_kind (isValue_ne_nil h), leafVal_kind (isValue_ne_nil h)]

example : (parse b!" \n 12.50\t" >>= fun v => .ok v.json) = .ok b!"12.50" := by decide +kernel

end Gjson
