import Verif.Lemmas.SizePretty
import Verif.Props.Multi
import Verif.Props.Query
/-
C57: how large a result can be.
-/
namespace Gjson
open Spec

/-- C57: for every text and every path, the value found is, up to one byte, at most
`8 ^ |path|` times as long as the text. So for a fixed path it is linear in the text. -/
theorem C57_result_bound {text path : Bytes} {v : Value} (h : get text path = .ok v) :
    v.json.length + 1 ≤ (text.length + 1) * 8 ^ path.length := get_size h

/-- C57: the same for the search continued from a value found. -/
theorem C57_continued {text path rest : Bytes} {v w : Value} (h : get text path = .ok v) (hw : v.get rest = .ok w) :
    w.json.length + 1 ≤ (v.json.length + 1) * 8 ^ rest.length :=
  getIn_size (get_prov h).oneText (fun _ _ h => get_size h) hw

/-- C57: the string of a value found is no longer than its text, except the words
`true` and `false`, which stand for any text of that kind. -/
theorem C57_string {text path s : Bytes} {v : Value} (h : get text path = .ok v) (hs : v.str = .ok s) :
    s.length ≤ v.json.length ∨ s = b!"true" ∨ s = b!"false" := by
  unfold Value.str at hs
  split at hs
  · cases hs; exact .inr (.inl rfl)
  · cases hs; exact .inr (.inr rfl)
  · cases hs; exact .inl (Nat.le_refl _)
  · cases hs; exact .inl (Nat.le_refl _)
  · cases hs; exact .inl (Nat.le_refl _)
  · left
    split at hs
    · cases hs
      rcases (get_prov h).uesc with e | e
      · rw [e]; simp
      · rw [e]; exact unescQ_len v.json
    · unfold stripQuotes at hs
      split at hs
      · simp [rpanic] at hs
      · exact (slice_len hs).1
  · cases hs; exact .inl (by simp)

/-- C57: a modifier other than `@pretty` at most doubles the text, with two bytes more,
whatever its argument. -/
theorem C57_modifier {text n a m : Bytes} {v : Value} (hm : ModCall n a m) (hn : n ≠ b!"pretty") (h : get text m = .ok v) :
    v.json.length ≤ 2 * text.length + 2 := by
  have := get_mod hm (t := []) (sep := 0) (rest := []) ⟨rfl, rfl⟩ text
  rw [List.append_nil, h] at this
  obtain ⟨out, h1, h2⟩ := bind_eq_ok.1 this.symm
  rw [if_pos rfl] at h2
  cases h2
  have hl : (jsonIntoOwned (pParse 0 out)).json.length ≤ out.length := by
    rw [(sameValue_owned (pParse_oneText _ _)).json]
    exact (parse_len (parse_eq out)).1
  refine Nat.le_trans hl ?_
  unfold modApply at h1
  split at h1
  · cases h1; omega
  split at h1
  · exact modReverse_len h1
  split at h1
  · have := ugly_len h1; omega
  split at h1
  · unfold modValid at h1
    obtain ⟨b, _, h1⟩ := bind_eq_ok.1 h1
    split at h1 <;> cases h1
    · omega
    · simp
  split at h1
  · have := modFlatten_len h1; omega
  split at h1
  · exact modJoin_len h1
  · cases h1; simp

/-- C57: `ugly` makes no text longer. -/
theorem C57_ugly {text out : Bytes} (h : ugly text = .ok out) : out.length ≤ text.length := ugly_len h

/-- C57: what `pretty` writes is linear in the text, although a line is indented as deep as
it is nested. -/
theorem C57_pretty {text out : Bytes} {o : PrettyOptions} (h : prettyOptions text o = .ok out) :
    out.length ≤ o.pfx.length + (6 + o.pfx.length + 500 * o.indent.length) * (text.length + 4) + 1 :=
  prettyOptions_len (Nat.le_refl _) (Nat.le_refl _) h

/-- C57: with the default options. -/
theorem C57_pretty_default {text out : Bytes} (h : pretty text = .ok out) : out.length ≤ 1006 * (text.length + 4) + 1 := by
  have := C57_pretty h
  rw [show PrettyOptions.default.pfx.length + (6 + PrettyOptions.default.pfx.length + 500 * PrettyOptions.default.indent.length) * (text.length + 4) + 1 =
    1006 * (text.length + 4) + 1 by simp [PrettyOptions.default]] at this
  exact this

/-! ### The growth is attained -/

/-- `[@this,@this]`, `m + 1` times. -/
def doubling : Nat → Bytes
  | 0 => b!"[@this,@this]"
  | m + 1 => b!"[@this,@this]" ++ c! '|' :: doubling m

theorem doubling_length : ∀ m, (doubling m).length = 14 * m + 13
  | 0 => rfl
  | m + 1 => by simp [doubling, doubling_length m]; omega

theorem subPath_this : SubPath b!"@this" := by
  repeat (refine .plain (by decide) (by decide) (by decide) ?_)
  exact .nil

theorem double_this {t : Bytes} (h : IsValue t) : ∃ r, get t b!"@this" = .ok r ∧
    [b!"@this", b!"@this"].mapM (get t) = .ok [r, r] ∧ arrayText (([r, r].filter (·.exists)).map (·.json)) = arrayText [t, t] := by
  obtain ⟨r, h1, hs⟩ := C34_this_json h
  have he : r.exists = true := sameAsText_exists hs (isValue_ne_nil h)
  have h2 : r.json = t := hs.1
  refine ⟨r, h1, ?_, ?_⟩
  · simp only [List.mapM_cons, h1, ok_bind, List.mapM_nil, pure_eq_ok]
  · simp [he, h2]

/-- C57: it can grow exponentially with the path: with every `[@this,@this]` in the path
the result doubles. For every JSON value. -/
theorem C57_growth : ∀ (m : Nat) {t : Bytes}, IsValue t →
    ∃ v, get t (doubling m) = .ok v ∧ v.json.length + 3 = 2 ^ (m + 1) * (t.length + 3)
  | 0, t, h => by
    obtain ⟨r, h1, h2, h3⟩ := double_this h
    have := C35_array t (ps := [b!"@this", b!"@this"]) (by simp) (by intro p hp; simp at hp; subst hp; exact subPath_this)
    rw [h2] at this
    obtain ⟨v, g1, _, _, g4⟩ := this
    refine ⟨v, g1, ?_⟩
    rw [g4, h3]
    simp [arrayText, commaSep]; omega
  | m + 1, t, h => by
    obtain ⟨r, h1, h2, h3⟩ := double_this h
    have := C35_array_rest t (ps := [b!"@this", b!"@this"]) (by simp) (by intro p hp; simp at hp; subst hp; exact subPath_this) h2 (.inr rfl) (doubling m)
    rw [h3] at this
    obtain ⟨v, g1, g2⟩ := C57_growth m (t := arrayText [t, t]) (by
      exact IsArray.isValue (C35_array_isArray (vs := [t, t]) (by simpa using h)))
    rw [g1] at this
    generalize hx : get t _ = x at this
    cases this with
    | @ok a _ hs =>
      refine ⟨a, hx, ?_⟩
      rw [hs.json, g2, Nat.pow_succ 2 (m + 1)]
      have : (arrayText [t, t]).length + 3 = 2 * (t.length + 3) := by simp [arrayText, commaSep]; omega
      rw [this, Nat.mul_assoc]

/-- The bound and the growth on one text. -/
example : ∃ v, get b!"{\"a\":[1,2]}" b!"[@this,@this]|[@this,@this]" = .ok v ∧ v.json.length = 53 ∧
    v.json = b!"[[{\"a\":[1,2]},{\"a\":[1,2]}],[{\"a\":[1,2]},{\"a\":[1,2]}]]" ∧ doubling 1 = b!"[@this,@this]|[@this,@this]" :=
  ⟨_, rfl, by decide +kernel, by decide +kernel, rfl⟩

/-- Texts that are not JSON do get longer. -/
example : (get b!"[1\"\"\"\"" b!"@reverse" >>= fun v => .ok v.json) = .ok b!"[\"\",\"\",1]" ∧
    pretty b!"t" = .ok b!"true\n" := by decide +kernel

end Gjson
