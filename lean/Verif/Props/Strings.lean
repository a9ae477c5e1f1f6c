import Verif.Lemmas.Shown
import Verif.Lemmas.CutChar
import Verif.Lemmas.Enum
/-
C21, C22, C23, C37: escaping and unescaping.
-/
namespace Gjson
open Spec

/-! ### C21 -/

/-- C21: `unescape(escape(s)) == s` for every string of bytes. -/
theorem C21_unescape_escape (s : Bytes) : unescape (escape s) = .ok s := by
  have : escape s = c! '"' :: (s.flatMap escapeByte ++ [c! '"']) := by simp [escape, jsonString]
  rw [this, unescape_quoted, unesc_escape]

/-- The escapes are really used. -/
example : escape b!"a\"b\\\n\x01é" = b!"\"a\\\"b\\\\\\n\\u0001é\"" := by decide +kernel

/-! ### C22 -/

/-- C22: `escape(s)` is a JSON string literal and `valid` accepts it. -/
theorem C22_escape_valid (s : Bytes) : StrLit (escape s) ∧ valid (escape s) = .ok true := by
  refine ⟨strLit_escape s, ?_⟩
  rw [valid_eq_pText, (pText_iff _).2 ⟨[], escape s, [], by simp, Ws.nil, Ws.nil, .str (strLit_escape s)⟩]

/-- C22: `parse(escape(s))` has kind String, its `json()` is the literal and its
`str()` is `s`. -/
theorem C22_parse_escape (s : Bytes) :
    ∃ v, parse (escape s) = .ok v ∧ v.exists = true ∧ v.kind = .string ∧ v.json = escape s ∧
      v.str = .ok s := by
  have he : escape s = c! '"' :: (s.flatMap escapeByte ++ [c! '"']) := by simp [escape, jsonString]
  refine ⟨leafVal (some 0) (escape s), ?_, ?_, ?_, ?_, ?_⟩
  · rw [parse_eq]
    have := pParse_scalar (v := escape s) (r := []) (.str (strLit_escape s)) .nil (by rw [he]; simp [kindOf]) 0
    rw [List.append_nil] at this
    rw [this]
  · rw [leafVal, mkVal_exists, he]; rfl
  · rw [leafVal_kind (by rw [he]; simp), he]; rfl
  · exact leafVal_json _ _
  · rw [he, leafVal_str (strBody_escape s), unesc_escape]

/-- C22: the same inside a document: as an element of an array it is read back. -/
theorem C22_element_escape (s : Bytes) :
    ∃ v, parse ([c! '['] ++ escape s ++ [c! ']']) = .ok v ∧
      ∃ e, v.array = .ok [e] ∧ e.kind = .string ∧ e.str = .ok s := by
  have he : escape s = c! '"' :: (s.flatMap escapeByte ++ [c! '"']) := by simp [escape, jsonString]
  have hv : IsArray ([c! '['] ++ escape s ++ [c! ']']) [escape s] := by
    refine .inr ⟨[⟨[], escape s, []⟩], by simp, ?_, ?_, by simp [elemsText, Elem.text], rfl⟩
    · intro e he; simp at he; subst he; exact ⟨Ws.nil, Ws.nil⟩
    · intro e he; simp at he; subst he; exact .str (strLit_escape s)
  obtain ⟨q, h1, ps, h2, h3⟩ := IsArray.toks (r := []) hv 0
  rw [List.append_nil] at h1
  refine ⟨mkVal (c! '[' :: q) (some 0) (INFO_ARRAY ||| INFO_FOG), ?_, ?_⟩
  · rw [parse_eq, h1]; rfl
  · match ps, h2 with
    | [p], _ =>
      refine ⟨leafVal (some p) (escape s), ?_, ?_, ?_⟩
      · unfold Value.array
        rw [mkVal_kind, if_pos (by decide)]
        unfold Value.each
        rw [mkVal_exists, mkVal_kind]
        rw [if_neg (by simp), if_neg (by decide), mkVal_json]
        obtain ⟨j, hj⟩ := forEach_at (kind := .array)
          (f := fun (arr : List Value) _ value => .ok (arr ++ [value], true)) false [] (At.zero (c! '[' :: q))
        rw [show kindMap (((INFO_ARRAY ||| INFO_FOG) <<< 24) >>> 24) = Kind.array by decide, hj]
        simp only [eachToks, Bool.false_eq_true, if_false, List.drop_succ_cons, List.drop_zero]
        rw [h3]
        rfl
      · rw [leafVal_kind (by rw [he]; simp), he]; rfl
      · rw [he, leafVal_str (strBody_escape s), unesc_escape]

/-! ### C23 -/

/-- C23, for every RFC string whose surrogate pairs denote code points in an odd
plane (plane 1 with the emoji is one): `str()` of the parsed literal is the
decoded text. Missing: the even planes 2, 4, …, 16, for which the claim is false
(`C23_false_even_plane`). -/
theorem C23_str_decodes_partial {b t : Bytes} (h : Decodes OddPlane b t) (w1 w2 : Bytes)
    (h1 : Ws w1) (h2 : Ws w2) :
    ∃ v, parse (w1 ++ (c! '"' :: (b ++ [c! '"'])) ++ w2) = .ok v ∧ v.kind = .string ∧ v.str = .ok t := by
  have hlit : StrLit (c! '"' :: (b ++ [c! '"'])) := ⟨b, h.strBody, rfl⟩
  refine ⟨leafVal (some (0 + w1.length)) (c! '"' :: (b ++ [c! '"'])), ?_, ?_, ?_⟩
  · rw [parse_eq, List.append_assoc, pParse_ws h1,
      pParse_scalar (.str hlit) (Follow.ws' h2) (by simp [kindOf])]
  · rw [leafVal_kind (by simp)]; rfl
  · rw [leafVal_str h.strBody, decodes_odd h]

/-- C23: the same for `tools::unescape`. -/
theorem C23_unescape_decodes_partial {b t : Bytes} (h : Decodes OddPlane b t) :
    unescape (c! '"' :: (b ++ [c! '"'])) = .ok t := by
  rw [unescape_quoted, decodes_odd h]

/-- Every string without surrogates is covered by the partial theorems. -/
theorem C23_bmp_covered {b t : Bytes} (h : Decodes (fun _ => False) b t) : Decodes OddPlane b t := by
  induction h with
  | nil => exact .nil
  | plain h1 h2 h3 _ ih => exact .plain h1 h2 h3 ih
  | esc h _ ih => exact .esc h ih
  | bmp a1 a2 a3 a4 h _ ih => exact .bmp a1 a2 a3 a4 h ih
  | pair _ _ _ _ _ _ _ _ _ _ _ _ _ hp => exact hp.elim

/-- `"\ud83d\ude00"` denotes U+1F600 and is covered. -/
example : Decodes OddPlane b!"a\\n\\u00e9\\ud83d\\ude00" b!"a\né😀" :=
  .plain (by decide) (by decide) (by decide) <| .esc (by decide) <|
    .bmp (h1 := c! '0') (h2 := c! '0') (h3 := c! 'e') (h4 := c! '9') (by decide) (by decide) (by decide) (by decide)
      (by decide) <|
    .pair (cp := 0x1F600) (by decide) (by decide) (by decide) (by decide) (by decide) (by decide) (by decide)
      (by decide) (by decide) (by decide) (by decide) (by decide) (by decide) (by unfold OddPlane; decide) .nil

/-- C23 is false as stated: `"\ud842\udfb7"` denotes U+20BB7 (𠮷) but `str()` is
U+10BB7: `((r1 - 0xd800) << 10) | (r2 - 0xdc00) + 0x10000` parses as an `or`
with the sum (util.rs:97-105). -/
theorem C23_false_even_plane :
    Decodes (fun _ => True) b!"\\ud842\\udfb7" b!"𠮷" ∧
    (parse b!"\"\\ud842\\udfb7\"" >>= Value.str) = .ok b!"𐮷" ∧ b!"𐮷" ≠ b!"𠮷" := by
  refine ⟨?_, by decide +kernel, by decide⟩
  exact .pair (cp := 0x20BB7) (by decide) (by decide) (by decide) (by decide) (by decide) (by decide) (by decide)
      (by decide) (by decide) (by decide) (by decide) (by decide) (by decide) trivial .nil

/-- C23: exactly which pairs go wrong. A pair for `cp` in an even plane is
decoded as `cp - 0x10000`, in every string. -/
theorem C23_even_plane_wrong {h1 h2 h3 h4 g1 g2 g3 g4 : UInt8} {r : Bytes} {cp : Nat}
    (a1 : IsHex h1) (a2 : IsHex h2) (a3 : IsHex h3) (a4 : IsHex h4)
    (b1 : IsHex g1) (b2 : IsHex g2) (b3 : IsHex g3) (b4 : IsHex g4)
    (l1 : 0xD800 ≤ codeUnit h1 h2 h3 h4) (l2 : codeUnit h1 h2 h3 h4 ≤ 0xDBFF)
    (l3 : 0xDC00 ≤ codeUnit g1 g2 g3 g4) (l4 : codeUnit g1 g2 g3 g4 ≤ 0xDFFF)
    (hcp : cp = 0x10000 + (codeUnit h1 h2 h3 h4 - 0xD800) * 0x400 + (codeUnit g1 g2 g3 g4 - 0xDC00))
    (he : ¬ OddPlane cp) (hr : unescape (c! '"' :: (r ++ [c! '"'])) = .ok t) :
    unescape (c! '"' :: ((c! '\\' :: c! 'u' :: h1 :: h2 :: h3 :: h4 :: c! '\\' :: c! 'u' :: g1 :: g2 :: g3 :: g4 :: r)
      ++ [c! '"'])) = .ok (utf8 (cp - 0x10000) ++ t) := by
  rw [unescape_quoted] at hr ⊢
  have hr' : unesc r = t := by simpa using hr
  have hne : ¬ cp / 0x10000 % 2 = 1 := he
  have hs : Scalar (cp - 0x10000) := by unfold Scalar; omega
  rw [unesc_pair, pair4_eq a1 a2 a3 a4 b1 b2 b3 b4 l1 l2 l3 l4 cp hcp, if_neg hne, charFromU32_scalar hs,
    encodeUtf8_eq hs, hr']
  rw [hex4_eq a1 a2 a3 a4]; unfold utf16IsSurrogate; simp; omega

/-! ### C37 -/

/-- C37, for JSON string literals: if the literal is UTF-8 so is the result of
`unescape`. Missing: arguments that are not JSON string literals, for which the
claim is false (`C37_false`). -/
theorem C37_unescape_utf8_partial {t : Bytes} (h : StrLit t) (hu : IsUtf8 t) :
    ∃ u, unescape t = .ok u ∧ IsUtf8 u := by
  obtain ⟨b, hb, rfl⟩ := h
  refine ⟨unesc b, unescape_quoted b, ?_⟩
  exact unesc_utf8 _ b (Nat.le_refl _) hb ((hu.tail_ascii (by decide)).left (by decide))

example : StrLit b!"\"é\\u00e9\\ud83d\"" ∧ IsUtf8 b!"\"é\\u00e9\\ud83d\"" :=
  ⟨⟨b!"é\\u00e9\\ud83d", .plain (by decide) (by decide) (by decide) (.plain (by decide) (by decide) (by decide)
    (.uni (by decide) (by decide) (by decide) (by decide) (.uni (by decide) (by decide) (by decide) (by decide) .nil))),
    by decide⟩, by decide +kernel⟩

/-- C37 is false as stated: the four bytes after `\u` are skipped even when they
are not hexadecimal, so a multi-byte character can be cut (util.rs:59-63). -/
theorem C37_false : IsUtf8 b!"\"\\u000é\"" ∧ ∃ u, unescape b!"\"\\u000é\"" = .ok u ∧ ¬ IsUtf8 u := by
  exact ⟨by decide +kernel, [0xEF, 0xBF, 0xBD, 0xA9], by decide +kernel, by decide +kernel⟩

/-- C37, exactly: for any UTF-8 argument the result is UTF-8 if and only if the argument is
not a text in quotes in which the four bytes of a `\u` escape end inside a multi-byte
character. -/
theorem C37_exact {t : Bytes} (hu : IsUtf8 t) :
    ∃ u, unescape t = .ok u ∧ (IsUtf8 u ↔ ∀ b, t = c! '"' :: (b ++ [c! '"']) → ¬ CutsChar b) :=
  ⟨unescQ t, unescape_eq t, unescQ_utf8 hu⟩

/-- Both cases: an escape that ends with a character, and one that cuts it. -/
example : ¬ CutsChar b!"\\u00é\\q" ∧ CutsChar b!"x\\u000éy" := by
  refine ⟨?_, b!"x", c! '0', c! '0', c! '0', 0xC3, 0xA9, b!"y", .plain (by decide) (by decide) .nil, by decide +kernel, by decide, by decide⟩
  have e : b!"\\u00é\\q" = c! '\\' :: c! 'u' :: c! '0' :: c! '0' :: 0xC3 :: 0xA9 :: b!"\\q" := by decide +kernel
  rw [e, cutsChar_uni]
  rintro (⟨c, q, h, hc, _⟩ | h)
  · simp at h; rw [← h.1] at hc; exact absurd hc (by decide)
  · exact cutsChar_bad (by decide) (by decide) h

/-! ### C47 -/

/-- C47: every string literal is shown as exactly one text, by `str()` of the parsed literal
and by `tools::unescape`, whatever its `\u` escapes are. -/
theorem C47_shown {b : Bytes} (hb : StrBody b) {w1 w2 : Bytes} (h1 : Ws w1) (h2 : Ws w2) :
    ∃ t, Shown b t ∧ (∀ t', Shown b t' → t' = t) ∧ unescape (c! '"' :: (b ++ [c! '"'])) = .ok t ∧
      ∃ v, parse (w1 ++ (c! '"' :: (b ++ [c! '"'])) ++ w2) = .ok v ∧ v.kind = .string ∧ v.str = .ok t := by
  have hlit : StrLit (c! '"' :: (b ++ [c! '"'])) := ⟨b, hb, rfl⟩
  obtain ⟨t, ht⟩ := shown_total hb
  refine ⟨t, ht, fun t' h => (shown_unesc h).symm.trans (shown_unesc ht), by rw [unescape_quoted, shown_unesc ht],
    leafVal (some (0 + w1.length)) (c! '"' :: (b ++ [c! '"'])), ?_, ?_, ?_⟩
  · rw [parse_eq, List.append_assoc, pParse_ws h1,
      pParse_scalar (.str hlit) (Follow.ws' h2) (by simp [kindOf])]
  · rw [leafVal_kind (by simp)]; rfl
  · rw [leafVal_str hb, shown_unesc ht]

/-- C47: where RFC 8259 gives the text, it is the one shown, except for the even planes. -/
theorem C47_rfc {b t : Bytes} (h : Decodes OddPlane b t) : Shown b t := by
  obtain ⟨t', ht⟩ := shown_total h.strBody
  have := shown_unesc ht
  rw [decodes_odd h] at this
  rw [this]; exact ht

/-- A surrogate before another escape takes it along: `\ud800\u0041b` is shown as `�b`. A
surrogate before plain text, and a pair in plane 2. -/
example : Shown b!"\\ud800\\u0041b" b!"�b" ∧ Shown b!"\\udc00A" b!"�A" ∧ Shown b!"\\ud842\\udfb7" b!"𐮷" :=
  ⟨.broken (h1 := c! 'd') (h2 := c! '8') (h3 := c! '0') (h4 := c! '0') (g1 := c! '0') (g2 := c! '0') (g3 := c! '4') (g4 := c! '1')
      (by decide) (by decide) (by decide) (by decide) (by decide) (by decide) (by decide) (by decide)
      (by unfold IsSurrogate; decide) (by unfold IsPair; decide) (.plain (by decide) (by decide) (by decide) .nil),
    .lone (h1 := c! 'd') (h2 := c! 'c') (h3 := c! '0') (h4 := c! '0') (by decide) (by decide) (by decide) (by decide)
      (by unfold IsSurrogate; decide) (by decide) (.plain (by decide) (by decide) (by decide) .nil),
    .pair (h1 := c! 'd') (h2 := c! '8') (h3 := c! '4') (h4 := c! '2') (g1 := c! 'd') (g2 := c! 'f') (g3 := c! 'b') (g4 := c! '7')
      (cp := 0x20BB7) (by decide) (by decide) (by decide) (by decide) (by decide) (by decide) (by decide) (by decide)
      (by unfold IsPair; decide) (by decide) .nil⟩

end Gjson
