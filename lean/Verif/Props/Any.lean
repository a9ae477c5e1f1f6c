import Verif.Lemmas.Any
import Verif.Props.Strings
import Verif.Props.ArrayPaths
/-
C69 and C70: what is decoded, read and compared, for every text, JSON or not.
-/
namespace Gjson
open Spec

/-! ### C69 -/

/-- C69: `tools::unescape` decodes what is between the first and the last quote. -/
theorem C69_unescape (b t : Bytes) : unescape (c! '"' :: (b ++ [c! '"'])) = .ok t ↔ Unquoted b t := by
  rw [unescape_quoted, unquoted_iff, Except.ok.injEq]

/-- C69: of a text that does not begin and end with a quote it makes nothing. -/
theorem C69_unescape_other {x : Bytes} (h : ∀ b, x ≠ c! '"' :: (b ++ [c! '"'])) : unescape x = .ok [] := by
  rw [unescape_eq, Except.ok.injEq]
  unfold unescQ
  match x, h with
  | [], _ => rfl
  | [_], _ => rfl
  | x :: y :: r, h =>
    simp only
    rw [if_neg]
    rintro ⟨rfl, h'⟩
    refine h (y :: r).dropLast ?_
    rw [← h', List.dropLast_concat_getLast]

/-- A quote that is not escaped, a plus sign as a digit, a `\u` that takes what is behind it,
and an unknown escape that ends it all; and one quote alone. -/
example : Unquoted b!"a\"\\u+041\\uxyz!b\\qc" (b!"a\"A" ++ utf8 0xFFFD ++ b!"b") ∧
    unescape b!"\"a\"\\u+041\\uxyz!b\\qc\"" = .ok (b!"a\"A" ++ utf8 0xFFFD ++ b!"b") ∧ unescape b!"\"" = .ok [] := by
  have h : Unquoted b!"a\"\\u+041\\uxyz!b\\qc" (b!"a\"A" ++ utf8 0xFFFD ++ b!"b") := by
    refine .plain (by decide) (by decide) (.plain (by decide) (by decide) ?_)
    refine Unquoted.bmp (h1 := c! '+') (h2 := c! '0') (h3 := c! '4') (h4 := c! '1') (u := 0x41)
      ⟨by decide, by decide, by decide, .inr ⟨rfl, by decide⟩⟩ (by unfold IsSurrogate; decide) ?_
    refine Unquoted.noNumber (h1 := c! 'x') (h2 := c! 'y') (h3 := c! 'z') (h4 := c! '!') (by unfold Quad; decide) ?_
    exact .plain (by decide) (by decide) (.ends (.unknown (by decide) (by decide)))
  exact ⟨h, (C69_unescape _ _).2 h, C69_unescape_other (by simp)⟩

/-- C69: every sequence of bytes is decoded to exactly one text, and told as exactly one. -/
theorem C69_one (b : Bytes) : (∃ t, Unquoted b t ∧ ∀ t', Unquoted b t' → t' = t) ∧ ∃ s, Told b s ∧ ∀ s', Told b s' → s' = s := by
  obtain ⟨t, ht⟩ := unquoted_total b
  refine ⟨⟨t, ht, fun t' h' => (unquoted_unesc h').symm.trans (unquoted_unesc ht)⟩, _, told_iff.2 rfl, fun s' h => told_iff.1 h⟩

/-- C69: on the literals of RFC 8259 this is the decoding of C47. -/
theorem C69_literal {b : Bytes} (h : StrBody b) (t : Bytes) : (Unquoted b t ↔ Shown b t) ∧ (Told b t ↔ Shown b t) := by
  obtain ⟨s, hs, one, hu, v, h1, h2, h3⟩ := C47_shown h (w1 := []) (w2 := []) (by intro c hc; cases hc) (by intro c hc; cases hc)
  have key : ∀ t, Unquoted b t ↔ Shown b t := fun t => by
    rw [← C69_unescape, hu, Except.ok.injEq]
    exact ⟨fun e => e ▸ hs, fun e => (one t e).symm⟩
  refine ⟨key t, ?_⟩
  unfold Told
  split
  · exact key t
  · rename_i hb
    have : Unquoted b b := by
      refine (key b).2 ?_
      clear key h1 h2 h3 hu one hs
      induction h with
      | nil => exact .nil
      | plain h1 h2 h3 _ ih => exact .plain h1 h2 h3 (ih (fun hm => hb (List.mem_cons_of_mem _ hm)))
      | esc => exact absurd (by simp) hb
      | uni => exact absurd (by simp) hb
    rw [← key t]
    exact ⟨fun e => e ▸ this, fun e => (unquoted_unesc e).symm.trans (unquoted_unesc this)⟩

section
variable {v : Value} (h : Handed v) (he : v.exists = true)
include h he

/-- C69: what the accessors of a value that exists return, from its text alone. -/
theorem C69_str (s : Bytes) : v.str = .ok s ↔ StrOf v.json s := ok_iff_of (h.reads he).1 strOf_one s

theorem C69_i64 (n : Int) : v.i64 = .ok n ↔ I64Of v.json n :=
  ok_iff_of (h.reads he).2.1 (numberOf_one (R := SignedOf) fun _ _ _ => signed_one) n

theorem C69_u64 (n : Nat) : v.u64 = .ok n ↔ U64Of v.json n :=
  ok_iff_of (h.reads he).2.2.1 (numberOf_one (R := UnsignedOf) fun _ _ _ => unsigned_one) n

theorem C69_f64 (x : F64) : v.f64 = .ok x ↔ F64Of v.json x :=
  ok_iff_of (h.reads he).2.2.2 (numberOf_one (R := FloatOf) fun _ _ _ => float_one) x

theorem C69_bool (b : Bool) : v.bool = .ok b ↔ BoolOf v.json b := by
  obtain ⟨n, h1, h2⟩ := (h.reads he).2.1
  exact ok_iff_of (bool_any h1 h2) boolOf_one b

/-- C69: and they return something. -/
theorem C69_total : (∃ s, v.str = .ok s) ∧ (∃ n, v.i64 = .ok n) ∧ (∃ n, v.u64 = .ok n) ∧ (∃ x, v.f64 = .ok x) ∧ ∃ b, v.bool = .ok b := by
  obtain ⟨⟨s, h1, _⟩, ⟨n, h2, h2'⟩, ⟨m, h3, _⟩, x, h4, _⟩ := h.reads he
  obtain ⟨b, h5, _⟩ := bool_any h2 h2'
  exact ⟨⟨s, h1⟩, ⟨n, h2⟩, ⟨m, h3⟩, ⟨x, h4⟩, b, h5⟩
end

/-- In a text that is not JSON: `"x` TAB `y"` is told as it stands, and so is the number `1-`,
which is 0 as an integer; a control byte in a string with a backslash ends what is told. -/
example : (get b!"[\"x\ty\",1-]" b!"0" >>= Value.str) = .ok b!"x\ty" ∧ StrOf b!"\"x\ty\"" b!"x\ty" ∧
    (get b!"[\"x\ty\",1-]" b!"1" >>= Value.str) = .ok b!"1-" ∧ StrOf b!"1-" b!"1-" ∧
    (get b!"[\"x\ty\",1-]" b!"1" >>= Value.i64) = .ok 0 ∧ (get b!"[\"x\\n\ty\"]" b!"0" >>= Value.str) = .ok b!"x\n" ∧ Told b!"x\\n\ty" b!"x\n" := by
  refine ⟨by decide +kernel, .string (b := b!"x\ty") ?_ ?_, by decide +kernel, .self (by decide), by decide +kernel, by decide +kernel, ?_⟩
  · exact .plain (by decide) (by decide) (.plain (by decide) (by decide) (.plain (by decide) (by decide) .nil))
  · unfold Told; rw [if_neg (by decide)]
  · unfold Told
    rw [if_pos (by decide)]
    exact .plain (by decide) (by decide) (.esc (e := c! 'n') (o := c! '\n') (by decide) (.ends (.control (by decide))))

/-! ### C70 -/

/-- C70: what a query decides for a value, with any bytes as operator and right hand side. -/
theorem C70_query {v : Value} (h : Handed v) (hu : v.exists = true ∨ v.kind ≠ .string) (op rh : Bytes) (b : Bool) :
    queryMatches v op rh = .ok b ↔ Answers v.json op rh b := ok_iff_of (matches_any h hu op rh) answers_one b

/-- C70: this is all it can answer, also for a missing value that is an unclosed string. -/
theorem C70_only {v : Value} (h : Handed v) {op rh : Bytes} {b : Bool} (hb : queryMatches v op rh = .ok b) : Answers v.json op rh b :=
  matches_sound h hb

/-- C70: there is exactly one right hand side, and there is at most one answer. -/
theorem C70_one (x op rh : Bytes) : (∃ r, RightSide rh r ∧ ∀ r', RightSide rh r' → r' = r) ∧
    ∀ a b, Answers x op rh a → Answers x op rh b → a = b := by
  obtain ⟨r, hr⟩ := rightSide_total rh
  exact ⟨⟨r, hr, fun r' h' => rightSide_one h' hr⟩, fun a b => answers_one⟩

/-- C70: so a query in a path holds for an element by the text that its left side finds there. -/
theorem C70_holds {lh op rh e : Bytes} {v : Value} (hv : (if lh = [] then parse e else get e lh) = .ok v)
    (hu : v.exists = true ∨ v.kind ≠ .string) (b : Bool) : HoldsIn lh op rh e b ↔ Answers v.json op rh b := by
  have hh : Handed v := by
    split at hv
    · exact .parse hv
    · exact .get hv
  rw [← C70_query hh hu]
  unfold HoldsIn
  rw [hv]
  exact ⟨fun ⟨w, h1, h2⟩ => by cases h1; exact h2, fun h => ⟨v, rfl, h⟩⟩

/-- Behind `~` a missing value counts as false. The right hand side `"a"b"` stands for `a"b`, two
quotes stand for themselves, and a doubled operator `<<` answers no, whatever there is. -/
example : Answers [] b!"=" b!"~false" true ∧ queryMatches Value.default b!"=" b!"~false" = .ok true ∧
    RightSide b!"\"a\"b\"" b!"a\"b" ∧ RightSide b!"\"\"" b!"\"\"" ∧ Answers b!"1" b!"<<" b!"2" false ∧
    (get b!"[1]" b!"#(<<2)" >>= fun v => .ok v.exists) = .ok false := by
  have h1 : Answers [] b!"=" b!"~false" true := by
    refine .truth (r := b!"false") (t := false) (.self (by simp)) (.num (n := 0) (by decide) (by decide) (.other (by decide) (by decide) (by decide))) ?_
    exact Answer.bool (op := .eq)
  refine ⟨h1, (C70_query (v := Value.default) (.parse (t := []) (by decide +kernel)) (.inr (by decide)) _ _ _).2 h1, ?_, ?_, ?_, by decide +kernel⟩
  · refine .quoted (b := b!"a\"b") (by decide) ?_
    unfold Told
    rw [if_neg (by decide)]
  · refine .self fun b hb => ?_
    have : ([] : Bytes) ++ [c! '"'] = b ++ [c! '"'] := List.tail_eq_of_cons_eq hb
    exact (List.append_cancel_right this).symm
  · exact .plain (.self (by simp)) (by decide) (.number (y := rawToF64 b!"1") (by decide) (floatOf_iff.2 rfl))
      (.unknown (by simp) (by decide) (by intro o; cases o <;> decide))

end Gjson
