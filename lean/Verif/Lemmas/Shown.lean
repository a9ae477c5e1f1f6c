import Verif.SpecStr
import Verif.Lemmas.Strings
/-
What `unescape` does with string literals of every kind.
-/
namespace Gjson
open Spec

theorem surrogate_iff {u : Nat} : utf16IsSurrogate u = true ↔ IsSurrogate u := by
  unfold utf16IsSurrogate IsSurrogate; simp; omega

theorem charFromU32_surrogate {u : Nat} (h : IsSurrogate u) : charFromU32 u = 0xFFFD := by
  unfold IsSurrogate at h
  unfold charFromU32
  rw [if_neg (by omega)]

theorem utf16Decode_broken {u v : Nat} (h : ¬ IsPair u v) : utf16Decode u v = 0xFFFD := by
  unfold IsPair at h
  unfold utf16Decode
  rw [if_neg (by omega)]

theorem unesc_lone {h1 h2 h3 h4 : UInt8} {q : Bytes} (hs : utf16IsSurrogate (hex4 [h1, h2, h3, h4]) = true) (hq : ¬ b!"\\u" <+: q) :
    unesc (c! '\\' :: c! 'u' :: h1 :: h2 :: h3 :: h4 :: q) =
      encodeUtf8 (charFromU32 (hex4 [h1, h2, h3, h4])) ++ unesc q := by
  rw [unesc.eq_def]
  simp only
  rw [if_neg (by decide), if_pos trivial, show simpleEscape (c! 'u') = none by decide]
  simp only
  rw [if_pos trivial, if_pos hs]
  split
  · rename_i a b g1 g2 g3 g4 q'
    rw [if_neg]
    rintro ⟨rfl, rfl⟩
    exact hq ⟨_, rfl⟩
  · rfl

theorem fffd : encodeUtf8 0xFFFD = utf8 0xFFFD := encodeUtf8_eq (by unfold Scalar; omega)

theorem shown_unesc {b t : Bytes} (h : Shown b t) : unesc b = t := by
  induction h with
  | nil => rfl
  | plain h1 h2 h3 _ ih => rw [unesc_plain (by grind) h3, ih]
  | esc h _ ih => rw [unesc_esc (simpleEscape_table h), ih]
  | bmp a1 a2 a3 a4 hs _ ih =>
    have hlt := codeUnit_lt a1 a2 a3 a4
    have hs' : ¬ (0xD800 ≤ _ ∧ _ ≤ 0xDFFF) := hs
    rw [unesc_bmp, hex4_eq a1 a2 a3 a4, charFromU32_scalar, encodeUtf8_eq, ih]
    · unfold Scalar; omega
    · unfold Scalar; omega
    · rw [hex4_eq a1 a2 a3 a4, Bool.eq_false_iff, ne_eq, surrogate_iff]; exact hs
  | @pair h1 h2 h3 h4 g1 g2 g3 g4 cp r t a1 a2 a3 a4 b1 b2 b3 b4 hp hcp _ ih =>
    obtain ⟨⟨l1, l2⟩, l3, l4⟩ := hp
    unfold pairPoint at hcp
    have hsur : utf16IsSurrogate (hex4 [h1, h2, h3, h4]) = true := by
      rw [hex4_eq a1 a2 a3 a4, surrogate_iff]; exact ⟨l1, by omega⟩
    rw [unesc_pair hsur, pair4_eq a1 a2 a3 a4 b1 b2 b3 b4 l1 l2 l3 l4 cp hcp, ih]
    congr 1
    split
    · exact encodeUtf8_eq (by unfold Scalar; omega)
    · rw [charFromU32_scalar (by unfold Scalar; omega)]
      exact encodeUtf8_eq (by unfold Scalar; omega)
  | @broken h1 h2 h3 h4 g1 g2 g3 g4 r t a1 a2 a3 a4 b1 b2 b3 b4 hs hp _ ih =>
    have hsur : utf16IsSurrogate (hex4 [h1, h2, h3, h4]) = true := by
      rw [hex4_eq a1 a2 a3 a4, surrogate_iff]; exact hs
    rw [unesc_pair hsur, ih, hex4_eq a1 a2 a3 a4]
    unfold pair4
    rw [fromStrRadix16_hex b1 b2 b3 b4]
    simp only
    rw [utf16Decode_broken hp, show charFromU32 0xFFFD = 0xFFFD by decide, fffd]
  | @lone h1 h2 h3 h4 r t a1 a2 a3 a4 hs hr _ ih =>
    have hsur : utf16IsSurrogate (hex4 [h1, h2, h3, h4]) = true := by
      rw [hex4_eq a1 a2 a3 a4, surrogate_iff]; exact hs
    rw [unesc_lone hsur hr, ih, hex4_eq a1 a2 a3 a4, charFromU32_surrogate hs, fffd]

theorem simpleEsc_table {e : UInt8} (h : IsSimpleEsc e) : ∃ o, (e, o) ∈ escTable := by
  unfold IsSimpleEsc at h
  simp only [List.mem_cons, List.not_mem_nil, or_false] at h
  rcases h with rfl | rfl | rfl | rfl | rfl | rfl | rfl | rfl
  · exact ⟨0x22, by decide⟩
  · exact ⟨0x5C, by decide⟩
  · exact ⟨0x2F, by decide⟩
  · exact ⟨0x08, by decide⟩
  · exact ⟨0x0C, by decide⟩
  · exact ⟨0x0A, by decide⟩
  · exact ⟨0x0D, by decide⟩
  · exact ⟨0x09, by decide⟩

/-- The rules cover every string literal. -/
theorem shown_total {b : Bytes} (h : StrBody b) : ∃ t, Shown b t := by
  generalize hn : b.length = n
  induction n using Nat.strongRecOn generalizing b with
  | ind n ih =>
    cases h with
    | nil => exact ⟨_, .nil⟩
    | @plain c r h1 h2 h3 hr =>
      obtain ⟨t, ht⟩ := ih r.length (by simp at hn; omega) hr rfl
      exact ⟨_, .plain h1 h2 h3 ht⟩
    | @esc e r he hr =>
      obtain ⟨t, ht⟩ := ih r.length (by simp at hn; omega) hr rfl
      obtain ⟨o, ho⟩ := simpleEsc_table he
      exact ⟨_, .esc ho ht⟩
    | @uni h1 h2 h3 h4 r a1 a2 a3 a4 hr =>
      by_cases hs : IsSurrogate (codeUnit h1 h2 h3 h4)
      · by_cases hp : b!"\\u" <+: r
        · cases hr with
          | nil => simp at hp
          | plain _ _ h3 _ =>
            rw [List.cons_prefix_cons] at hp
            exact absurd hp.1.symm h3
          | esc he _ =>
            rw [List.cons_prefix_cons, List.cons_prefix_cons] at hp
            obtain ⟨_, rfl, _⟩ := hp
            exact absurd he (by decide)
          | @uni g1 g2 g3 g4 r b1 b2 b3 b4 hr =>
            obtain ⟨t, ht⟩ := ih r.length (by simp at hn; omega) hr rfl
            by_cases hpair : IsPair (codeUnit h1 h2 h3 h4) (codeUnit g1 g2 g3 g4)
            · exact ⟨_, .pair a1 a2 a3 a4 b1 b2 b3 b4 hpair rfl ht⟩
            · exact ⟨_, .broken a1 a2 a3 a4 b1 b2 b3 b4 hs hpair ht⟩
        · obtain ⟨t, ht⟩ := ih r.length (by simp at hn; omega) hr rfl
          exact ⟨_, .lone a1 a2 a3 a4 hs hp ht⟩
      · obtain ⟨t, ht⟩ := ih r.length (by simp at hn; omega) hr rfl
        exact ⟨_, .bmp a1 a2 a3 a4 hs ht⟩

end Gjson
