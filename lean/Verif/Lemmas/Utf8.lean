import Verif.Lemmas.Strings
import Verif.Lemmas.Inv
import Verif.Lemmas.Coherent
/-
UTF-8 texts can be cut next to ASCII bytes; the texts `get` builds are UTF-8.
-/
namespace Gjson
open Spec

theorem Spec.IsUtf8.split {a b : Bytes} (h : IsUtf8 (a ++ b)) (he : Edge a b) : IsUtf8 a ∧ IsUtf8 b := by
  rcases he with he | he
  · rcases List.eq_nil_or_concat a with rfl | ⟨a', c, rfl⟩
    · exact ⟨.nil, h⟩
    · have hc : c < 0x80 := he c (by simp)
      have h' : IsUtf8 (a' ++ c :: b) := by simpa using h
      exact ⟨by simpa using (h'.left hc).append (.ascii hc), (h'.right hc).tail_ascii hc⟩
  · cases b with
    | nil => exact ⟨by simpa using h, .nil⟩
    | cons c b =>
      have hc : c < 0x80 := he c (by simp)
      exact ⟨h.left hc, h.right hc⟩

theorem Spec.IsUtf8.cuts {p q : Bytes} (h : IsUtf8 p) (hc : Cut p q) : IsUtf8 q := by
  induction hc with
  | refl => exact h
  | pre _ he ih => exact (ih.split he).1
  | suf _ he ih => exact (ih.split he).2

theorem ascii_utf8 {a : Bytes} (h : ∀ c ∈ a, c < 0x80) : IsUtf8 a := by
  induction a with
  | nil => exact .nil
  | cons c a ih => exact (IsUtf8.ascii (h c (by simp))).append (ih fun x hx => h x (by simp [hx]))

theorem isValue_head {w : Bytes} (h : IsValue w) : ∀ c ∈ w.head?, c < 0x80 := by
  obtain ⟨c, q, rfl, hs⟩ := IsValue.cons h
  intro d hd
  simp at hd; subst hd
  unfold StartsValue IsDigit at hs
  grind (splits := 40)

theorem numCh_ascii {c : UInt8} (h : NumCh c) : c < 0x80 := by unfold NumCh at h; grind

theorem isValue_last {w : Bytes} (h : IsValue w) : ∀ c ∈ w.getLast?, c < 0x80 := by
  have key : ∀ (a : UInt8) (m : Bytes) (z : UInt8), z < 0x80 → ∀ c ∈ (a :: (m ++ [z])).getLast?, c < 0x80 := by
    intro a m z hz c hc
    rw [← List.cons_append, List.getLast?_concat] at hc
    simp at hc; subst hc; exact hz
  cases h with
  | null => decide
  | true => decide
  | false => decide
  | str h => obtain ⟨b, _, rfl⟩ := h; exact key _ _ _ (by decide)
  | num h =>
    intro c hc
    exact numCh_ascii (numLit_numCh h c (List.mem_of_getLast? hc))
  | arrEmpty _ => exact key _ _ _ (by decide)
  | arr _ _ _ => exact key _ _ _ (by decide)
  | objEmpty _ => exact key _ _ _ (by decide)
  | obj _ _ _ => exact key _ _ _ (by decide)

/-- A value inside a UTF-8 text is UTF-8. -/
theorem Spec.IsUtf8.part {j w : Bytes} (h : IsUtf8 j) (hv : IsValue w) (hi : w <:+: j) : IsUtf8 w := by
  obtain ⟨x, y, rfl⟩ := hi
  have h1 := (h.split (.inl (by
    rw [List.getLast?_append]
    intro c hc
    cases hl : w.getLast? with
    | none => exact absurd (List.getLast?_eq_none_iff.1 hl) (isValue_ne_nil hv)
    | some d => rw [hl] at hc; simp at hc; subst hc; exact isValue_last hv d (by rw [hl]; simp)))).1
  exact (h1.split (.inr (isValue_head hv))).2

theorem utf8_commaSep : ∀ {vs : List Bytes}, (∀ v ∈ vs, IsUtf8 v) → IsUtf8 (commaSep vs)
  | [], _ => .nil
  | [v], h => h v (by simp)
  | v :: w :: r, h => by
    have := utf8_commaSep (vs := w :: r) (fun x hx => h x (by simp [hx]))
    exact (h v (by simp)).append ((IsUtf8.ascii (x := c! ',') (by decide)).append this)

theorem utf8_arrayText {vs : List Bytes} (h : ∀ v ∈ vs, IsUtf8 v) : IsUtf8 (arrayText vs) :=
  (IsUtf8.ascii (x := c! '[') (by decide)).append ((utf8_commaSep h).append (.ascii (by decide)))

theorem utf8_objectText {kvs : List (Bytes × Bytes)} (h : ∀ m ∈ kvs, IsUtf8 m.1 ∧ IsUtf8 m.2) : IsUtf8 (objectText kvs) := by
  refine (IsUtf8.ascii (x := c! '{') (by decide)).append ((utf8_commaSep ?_).append (.ascii (by decide)))
  intro v hv
  obtain ⟨m, hm, rfl⟩ := List.mem_map.1 hv
  exact (h m hm).1.append ((IsUtf8.ascii (x := c! ':') (by decide)).append (h m hm).2)

theorem escapeByte_ascii {c : UInt8} (h : c < 0x80) : ∀ x ∈ escapeByte c, x < 0x80 := by
  rcases escapeByte_cases c with ⟨h1, h2, h3, h4⟩ | ⟨e, h1, h2, h3⟩ | ⟨h1, h2, h3, h4, g1, g2, g3, g4, _, _, _, g5⟩
  · rw [h4]; simpa using h
  · rw [h3]; simpa using isSimpleEsc_ascii h1
  · rw [g5]; simpa using ⟨isHex_ascii g1, isHex_ascii g2, isHex_ascii g3, isHex_ascii g4⟩

theorem escapeByte_high {c : UInt8} (h : 0x80 ≤ c) : escapeByte c = [c] := by
  unfold escapeByte; rw [if_neg (by grind)]

/-- The JSON string of a UTF-8 string is UTF-8. -/
theorem utf8_jsonString {s : Bytes} (h : IsUtf8 s) : IsUtf8 (jsonString s) := by
  unfold jsonString
  refine ((IsUtf8.ascii (by decide)).append ?_).append (.ascii (by decide))
  obtain ⟨cs, rfl⟩ := h
  induction cs with
  | nil => exact .nil
  | cons c cs ih =>
    rw [List.flatMap_cons, List.flatMap_append]
    refine IsUtf8.append ?_ ih
    rcases utf8EncodeChar_cases c with ⟨y, hy, he⟩ | ⟨_, hall⟩
    · rw [he]
      simp only [List.flatMap_cons, List.flatMap_nil, List.append_nil]
      exact ascii_utf8 (escapeByte_ascii hy)
    · have : (String.utf8EncodeChar c).flatMap escapeByte = String.utf8EncodeChar c := by
        generalize String.utf8EncodeChar c = l at hall
        induction l with
        | nil => rfl
        | cons x l ih =>
          rw [List.flatMap_cons, escapeByte_high (hall x (by simp)), ih fun y hy => hall y (by simp [hy])]
          rfl
      rw [this]; exact .char c

theorem natDec_value (n : Nat) : IsValue (natDec n) := by
  rw [natDec_eq]
  exact .num ⟨[], numeral n, [], [], by simp, .inl rfl, (numeral_spec n).2.2.2, .inl rfl, .inl rfl⟩

theorem natDec_utf8 (n : Nat) : IsUtf8 (natDec n) := by
  rw [natDec_eq]
  refine ascii_utf8 fun c hc => ?_
  have := (numeral_spec n).2.1 c hc
  unfold IsDigit at this; grind

end Gjson
