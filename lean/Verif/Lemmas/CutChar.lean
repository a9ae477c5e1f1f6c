import Verif.Lemmas.Shown
/-
When the result of `unescape` is UTF-8.
-/
namespace Gjson
open Spec

/-- The first byte of a character is no continuation byte, all others are. -/
theorem encodeChar_shape (c : Char) : ∃ x t, String.utf8EncodeChar c = x :: t ∧ (x < 0x80 ∨ 0xC0 ≤ x) ∧ ∀ y ∈ t, 0x80 ≤ y ∧ y < 0xC0 := by
  have big : ∀ n : Nat, 192 ≤ n → n < 256 → (0xC0 : UInt8) ≤ UInt8.ofNat n := by
    intro n h1 h2
    rw [UInt8.le_iff_toNat_le, UInt8.toNat_ofNat']
    simp; omega
  have mid : ∀ n : Nat, 128 ≤ n → n < 192 → (0x80 : UInt8) ≤ UInt8.ofNat n ∧ UInt8.ofNat n < 0xC0 := by
    intro n h1 h2
    rw [UInt8.le_iff_toNat_le, UInt8.lt_iff_toNat_lt, UInt8.toNat_ofNat']
    simp; omega
  unfold String.utf8EncodeChar
  simp only
  split
  · rename_i h
    refine ⟨_, _, rfl, .inl ?_, by simp⟩
    rw [UInt8.lt_iff_toNat_lt, UInt8.toNat_ofNat']
    show _ % 256 < 128
    omega
  split
  · refine ⟨_, _, rfl, .inr (big _ (by omega) (by omega)), ?_⟩
    intro y hy
    simp only [List.mem_cons, List.not_mem_nil, or_false] at hy
    rcases hy with rfl <;> apply mid <;> omega
  split
  · refine ⟨_, _, rfl, .inr (big _ (by omega) (by omega)), ?_⟩
    intro y hy
    simp only [List.mem_cons, List.not_mem_nil, or_false] at hy
    rcases hy with rfl | rfl <;> apply mid <;> omega
  · refine ⟨_, _, rfl, .inr (big _ (by omega) (by omega)), ?_⟩
    intro y hy
    simp only [List.mem_cons, List.not_mem_nil, or_false] at hy
    rcases hy with rfl | rfl | rfl <;> apply mid <;> omega

/-- No continuation byte comes first. -/
theorem Spec.IsUtf8.head {c : UInt8} {r : Bytes} (h : IsUtf8 (c :: r)) : c < 0x80 ∨ 0xC0 ≤ c := by
  obtain ⟨cs, h⟩ := h
  cases cs with
  | nil => simp at h
  | cons d cs =>
    obtain ⟨x, t, e, hx, _⟩ := encodeChar_shape d
    rw [List.flatMap_cons, e] at h
    simp at h
    rw [h.1]; exact hx

/-- A UTF-8 text can be cut where no continuation byte follows. -/
theorem Spec.IsUtf8.cutAt : ∀ {cs : List Char} {a b : Bytes}, a ++ b = cs.flatMap String.utf8EncodeChar →
    (∀ c ∈ b.head?, c < 0x80 ∨ 0xC0 ≤ c) → IsUtf8 a ∧ IsUtf8 b
  | [], a, b, h, _ => by
    simp at h
    rw [h.1, h.2]; exact ⟨.nil, .nil⟩
  | d :: cs, a, b, h, hb => by
    rw [List.flatMap_cons] at h
    obtain ⟨x, t, e, hx, ht⟩ := encodeChar_shape d
    rcases List.append_eq_append_iff.1 h with ⟨a', h1, h2⟩ | ⟨c', h1, h2⟩
    · cases a' with
      | nil =>
        simp at h1 h2
        exact ⟨h1 ▸ .char d, h2 ▸ ⟨cs, rfl⟩⟩
      | cons y a' =>
        cases a with
        | nil => exact ⟨.nil, ⟨d :: cs, by rw [List.flatMap_cons]; simpa using h⟩⟩
        | cons z a =>
          rw [e] at h1
          have hy := ht y (by simp at h1; rw [h1.2]; simp)
          have := hb y (by rw [h2]; simp)
          exfalso; grind
    · obtain ⟨y1, y2⟩ := Spec.IsUtf8.cutAt (cs := cs) (a := c') (b := b) h2.symm hb
      exact ⟨h1 ▸ (IsUtf8.char d).append y1, y2⟩

theorem Spec.IsUtf8.cancel {a b : Bytes} (ha : IsUtf8 a) (h : IsUtf8 (a ++ b)) : IsUtf8 b := by
  obtain ⟨cs, rfl⟩ := ha
  induction cs with
  | nil => simpa using h
  | cons d cs ih =>
    apply ih
    rw [List.flatMap_cons, List.append_assoc] at h
    obtain ⟨ds, h⟩ := h
    cases ds with
    | nil =>
      obtain ⟨x, t, e, _⟩ := encodeChar_shape d
      rw [e] at h; simp at h
    | cons d' ds =>
      rw [List.flatMap_cons] at h
      have key : ∀ (e : Char) (r : Bytes), ByteArray.utf8DecodeChar? (String.utf8EncodeChar e ++ r).toByteArray 0 = some e := by
        intro e r
        rw [List.toByteArray_append]
        exact ByteArray.utf8DecodeChar?_utf8EncodeChar_append
      have := key d (cs.flatMap String.utf8EncodeChar ++ b)
      rw [h, key] at this
      simp only [Option.some.injEq] at this
      subst this
      exact ⟨ds, List.append_cancel_left h⟩

theorem utf8_append_iff {a b : Bytes} (ha : IsUtf8 a) : IsUtf8 (a ++ b) ↔ IsUtf8 b := ⟨ha.cancel, ha.append⟩

/-! ### Where a character is cut -/

theorem cutsChar_nil : ¬ CutsChar [] := by
  rintro ⟨a, h1, h2, h3, h4, c, q, _, e, _⟩
  simp at e

theorem cutsChar_plain {c : UInt8} {r : Bytes} (h1 : 0x20 ≤ c) (h2 : c ≠ c! '\\') : CutsChar (c :: r) ↔ CutsChar r := by
  constructor
  · rintro ⟨a, x1, x2, x3, x4, d, q, ha, e, hd⟩
    cases ha with
    | nil => simp at e; exact absurd e.1 h2
    | plain _ _ ha => simp at e; exact ⟨_, x1, x2, x3, x4, d, q, ha, by simpa using e.2, hd⟩
    | esc _ _ => simp at e; exact absurd e.1 h2
    | uni _ => simp at e; exact absurd e.1 h2
  · rintro ⟨a, x1, x2, x3, x4, d, q, ha, rfl, hd⟩
    exact ⟨c :: a, x1, x2, x3, x4, d, q, .plain h1 h2 ha, rfl, hd⟩

theorem cutsChar_esc {e : UInt8} {r : Bytes} (he : IsSimpleEsc e) : CutsChar (c! '\\' :: e :: r) ↔ CutsChar r := by
  constructor
  · rintro ⟨a, x1, x2, x3, x4, d, q, ha, h, hd⟩
    cases ha with
    | nil => simp at h; exact absurd he (h.1 ▸ by decide)
    | plain _ h2 _ => simp at h; exact absurd h.1.symm h2
    | esc _ ha => simp at h; exact ⟨_, x1, x2, x3, x4, d, q, ha, by simpa using h.2, hd⟩
    | uni _ => simp at h; exact absurd he (h.1 ▸ by decide)
  · rintro ⟨a, x1, x2, x3, x4, d, q, ha, rfl, hd⟩
    exact ⟨_, x1, x2, x3, x4, d, q, .esc he ha, rfl, hd⟩

theorem cutsChar_uni {h1 h2 h3 h4 : UInt8} {r : Bytes} : CutsChar (c! '\\' :: c! 'u' :: h1 :: h2 :: h3 :: h4 :: r) ↔
    (∃ c q, r = c :: q ∧ 0x80 ≤ c ∧ c < 0xC0) ∨ CutsChar r := by
  constructor
  · rintro ⟨a, x1, x2, x3, x4, d, q, ha, h, hd⟩
    cases ha with
    | nil => simp at h; exact .inl ⟨d, q, h.2.2.2.2, hd⟩
    | plain _ h2 _ => simp at h; exact absurd h.1.symm h2
    | esc he _ => simp at h; exact absurd he (h.1 ▸ by decide)
    | uni ha => simp at h; exact .inr ⟨_, x1, x2, x3, x4, d, q, ha, by simpa using h.2.2.2.2, hd⟩
  · rintro (⟨c, q, rfl, hc⟩ | ⟨a, x1, x2, x3, x4, d, q, ha, rfl, hd⟩)
    · exact ⟨[], h1, h2, h3, h4, c, q, .nil, rfl, hc⟩
    · exact ⟨_, x1, x2, x3, x4, d, q, .uni ha, rfl, hd⟩

theorem cutsChar_control {c : UInt8} {r : Bytes} (h : c < 0x20) : ¬ CutsChar (c :: r) := by
  rintro ⟨a, x1, x2, x3, x4, d, q, ha, e, hd⟩
  cases ha <;> simp at e <;> grind

theorem cutsChar_end : ¬ CutsChar [c! '\\'] := by
  rintro ⟨a, x1, x2, x3, x4, d, q, ha, e, hd⟩
  cases ha <;> simp at e

theorem cutsChar_bad {e : UInt8} {r : Bytes} (h1 : ¬ IsSimpleEsc e) (h2 : e ≠ c! 'u') : ¬ CutsChar (c! '\\' :: e :: r) := by
  rintro ⟨a, x1, x2, x3, x4, d, q, ha, h, hd⟩
  cases ha with
  | nil => simp at h; exact h2 h.1
  | plain _ h2 _ => simp at h; exact absurd h.1.symm h2
  | esc he _ => simp at h; exact h1 (h.1 ▸ he)
  | uni ha => simp at h; exact h2 h.1

theorem cutsChar_short {r : Bytes} (h : r.length < 4) : ¬ CutsChar (c! '\\' :: c! 'u' :: r) := by
  rintro ⟨a, x1, x2, x3, x4, d, q, ha, e, hd⟩
  cases ha with
  | nil => simp at e; rw [e] at h; simp at h; omega
  | plain _ h2 _ => simp at e; exact absurd e.1.symm h2
  | esc he _ => simp at e; exact absurd he (e.1 ▸ by decide)
  | uni ha => simp at e; rw [e] at h; simp at h; omega

theorem cutsChar_high {p q : Bytes} (h : ∀ y ∈ p, 0x80 ≤ y) : CutsChar (p ++ q) ↔ CutsChar q := by
  induction p with
  | nil => simp
  | cons y p ih =>
    have := h y (by simp)
    rw [List.cons_append, cutsChar_plain (by grind) (by grind), ih fun x hx => h x (by simp [hx])]

theorem simpleEscape_none {e : UInt8} : simpleEscape e = none ↔ ¬ IsSimpleEsc e := by
  rw [isSimpleEsc_iff]
  unfold simpleEscape
  grind

/-- After an escape. -/
theorem unesc_after {h q E : Bytes} (hE : IsUtf8 E) (hu : IsUtf8 (h ++ q))
    (ih : IsUtf8 q → (IsUtf8 (unesc q) ↔ ¬ CutsChar q)) :
    IsUtf8 (E ++ unesc q) ↔ ¬ ((∃ c r, q = c :: r ∧ 0x80 ≤ c ∧ c < 0xC0) ∨ CutsChar q) := by
  rw [utf8_append_iff hE]
  by_cases hc : ∃ c r, q = c :: r ∧ 0x80 ≤ c ∧ c < 0xC0
  · refine iff_of_false ?_ (fun h => h (.inl hc))
    obtain ⟨c, r, rfl, h1, h2⟩ := hc
    rw [unesc_plain (by grind) (by grind)]
    intro h
    have := h.head
    grind
  · have hq : IsUtf8 q := by
      obtain ⟨cs, hu⟩ := hu
      refine (IsUtf8.cutAt hu ?_).2
      intro c h
      cases q with
      | nil => simp at h
      | cons d r =>
        simp at h
        subst h
        by_cases h1 : 0x80 ≤ d
        · right
          by_cases h2 : d < 0xC0
          · exact absurd ⟨d, r, rfl, h1, h2⟩ hc
          · grind
        · left; grind
    rw [ih hq]
    exact ⟨fun h h' => h'.elim hc h, fun h h' => h (.inr h')⟩

theorem unesc_utf8_iff : ∀ (n : Nat) (b : Bytes), b.length ≤ n → IsUtf8 b → (IsUtf8 (unesc b) ↔ ¬ CutsChar b)
  | _, [], _, _ => iff_of_true .nil cutsChar_nil
  | 0, _ :: _, h, _ => by simp at h
  | n + 1, x :: r, hl, hu => by
    by_cases hx : x < 0x80
    · have hr := hu.tail_ascii hx
      by_cases h0 : x < c! ' '
      · rw [unesc.eq_def]
        simp only
        rw [if_pos h0]
        exact iff_of_true .nil (cutsChar_control h0)
      by_cases hb : x = c! '\\'
      · subst hb
        cases r with
        | nil =>
          rw [unesc.eq_def]
          exact iff_of_true .nil cutsChar_end
        | cons e r =>
          by_cases he : IsSimpleEsc e
          · obtain ⟨o, ho, ho2⟩ := simpleEscape_of_isSimpleEsc he
            rw [unesc_esc ho, cutsChar_esc he, ← unesc_utf8_iff n r (by simp at hl; omega) (hr.tail_ascii (isSimpleEsc_ascii he))]
            exact utf8_append_iff (a := [o]) (.ascii ho2)
          by_cases hU : e = c! 'u'
          · subst hU
            have hr' := hr.tail_ascii (by decide)
            match r, hr' with
            | h1 :: h2 :: h3 :: h4 :: q, hr' =>
              have hq : q.length ≤ n := by simp at hl; omega
              rw [cutsChar_uni]
              by_cases hs : utf16IsSurrogate (hex4 [h1, h2, h3, h4]) = true
              · rw [unesc.eq_def]
                simp only
                have e1 : simpleEscape 117 = none := by decide
                rw [if_neg (by decide), if_pos trivial, e1]
                simp only
                rw [if_pos trivial, if_pos hs]
                split
                · rename_i a b g1 g2 g3 g4 q'
                  split
                  · rename_i hab
                    obtain ⟨rfl, rfl⟩ := hab
                    have hq' : IsUtf8 ([g1, g2, g3, g4] ++ q') := by
                      have := (hr'.right (a := [h1, h2, h3, h4]) (x := c! '\\') (by decide)).tail_ascii (by decide)
                      exact this.tail_ascii (by decide)
                    rw [cutsChar_uni, unesc_after (IsUtf8.encode_pair _ _) hq'
                      (fun h => unesc_utf8_iff n q' (by simp at hl; omega) h)]
                    constructor
                    · rintro h (⟨c, r, e, hc⟩ | h')
                      · simp at e
                        rw [← e.1] at hc
                        exact absurd hc.1 (by decide)
                      · exact h h'
                    · exact fun h h' => h (.inr h')
                  · exact unesc_after (h := [h1, h2, h3, h4]) (IsUtf8.encode _) hr' (fun h => unesc_utf8_iff n _ hq h)
                · exact unesc_after (h := [h1, h2, h3, h4]) (IsUtf8.encode _) hr' (fun h => unesc_utf8_iff n _ hq h)
              · rw [unesc_bmp (by simpa using hs)]
                exact unesc_after (h := [h1, h2, h3, h4]) (IsUtf8.encode _) hr' (fun h => unesc_utf8_iff n _ hq h)
            | [], _ => exact iff_of_true (by rw [unesc.eq_def]; exact .nil) (cutsChar_short (by simp))
            | [_], _ => exact iff_of_true (by rw [unesc.eq_def]; exact .nil) (cutsChar_short (by simp))
            | [_, _], _ => exact iff_of_true (by rw [unesc.eq_def]; exact .nil) (cutsChar_short (by simp))
            | [_, _, _], _ => exact iff_of_true (by rw [unesc.eq_def]; exact .nil) (cutsChar_short (by simp))
          · rw [unesc.eq_def]
            simp only
            rw [if_neg (by decide), if_pos trivial, simpleEscape_none.2 he]
            simp only
            rw [if_neg hU]
            exact iff_of_true .nil (cutsChar_bad he hU)
      · rw [unesc_plain h0 hb, cutsChar_plain (by grind) hb, ← unesc_utf8_iff n r (by simpa using hl) hr]
        exact utf8_append_iff (a := [x]) (.ascii hx)
    · obtain ⟨p, q, h1, h2, h3, h4, h5⟩ := hu.split_high hx
      rw [h1, unesc_high h3, cutsChar_high h3]
      have hlen := congrArg List.length h1
      have : 0 < p.length := List.length_pos_iff.2 h2
      rw [← unesc_utf8_iff n q (by simp at hlen hl; omega) h5]
      exact utf8_append_iff h4

theorem unescQ_utf8 {t : Bytes} (hu : IsUtf8 t) :
    IsUtf8 (unescQ t) ↔ ∀ b, t = c! '"' :: (b ++ [c! '"']) → ¬ CutsChar b := by
  by_cases hq : ∃ b, t = c! '"' :: (b ++ [c! '"'])
  · obtain ⟨b, rfl⟩ := hq
    rw [unescQ_quoted, unesc_utf8_iff _ b (Nat.le_refl _) ((hu.tail_ascii (by decide)).left (by decide))]
    refine ⟨?_, fun h => h b rfl⟩
    intro h b' e
    have : b = b' := by simpa using e
    exact this ▸ h
  · have : unescQ t = [] := by
      unfold unescQ
      match t, hq with
      | [], _ => rfl
      | [_], _ => rfl
      | x :: y :: r, hq =>
        simp only
        rw [if_neg]
        rintro ⟨rfl, h⟩
        refine hq ⟨(y :: r).dropLast, ?_⟩
        rw [← h, List.dropLast_concat_getLast]
    rw [this]
    exact iff_of_true .nil fun b e => absurd ⟨b, e⟩ hq

end Gjson
