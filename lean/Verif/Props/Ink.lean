import Verif.Lemmas.Ink
import Verif.Lemmas.Examples
import Verif.Props.Results
/-
Property theorems: C53, and C36 for ASCII.
-/
namespace Gjson
open Spec

/-- Without a backslash there is nothing to read differently. -/
theorem reads_plain {B : UInt8 → Prop} : ReadsOf B b!"\\"
  | [], _, _ => by simp [unesc, of_nil]
  | c :: r, h, hk => by
    have hc : c ≠ c! '\\' := by rintro rfl; exact hk ⟨[], r, rfl⟩
    rw [unesc.eq_def]
    simp only
    split
    · exact of_nil
    · exact .cons (h c (by simp)) (reads_plain r h.tail fun hi => hk (hi.trans (List.suffix_cons c r).isInfix))

/-- The short escapes stand for ASCII bytes. -/
theorem reads_short {B : UInt8 → Prop} (hB : ∀ c, c < 0x80 → B c) : ReadsOf B b!"\\u"
  | [], _, _ => by simp [unesc, of_nil]
  | [c], h, _ => by
    rw [unesc.eq_def]
    simp only
    split
    · exact of_nil
    · split
      · exact of_nil
      · rw [unesc]; exact h
  | c :: e :: r, h, hk => by
    rw [unesc.eq_def]
    simp only
    split
    · exact of_nil
    · split
      · rename_i hc
        have he : e ≠ c! 'u' := by rintro rfl; exact hk ⟨[], r, by rw [hc]; rfl⟩
        split
        · rename_i o ho
          have : ∀ n : Fin 256, ∀ o, simpleEscape (UInt8.ofNat n.val) = some o → o < 0x80 := by
            have : ∀ n : Fin 256, (simpleEscape (UInt8.ofNat n.val)).all (· < 0x80) = true := by decide +kernel
            intro n o ho
            have h := this n
            rw [ho] at h
            simpa using h
          have ho' := this ⟨e.toNat, e.toNat_lt⟩ o (by simpa using ho)
          exact .cons (hB o ho') (reads_short hB r h.tail.tail fun hi => hk (hi.trans ⟨[c, e], [], by simp⟩))
        · rw [if_neg he]; exact of_nil
      · exact .cons (h c (by simp)) (reads_short hB (e :: r) h.tail fun hi => hk (hi.trans (List.suffix_cons c _).isInfix))

/-- C53: for every text and path, JSON or not, every byte of the result is a byte of the text
or the path, or one of those that are written between them (unless the options of a
`@pretty` have escapes). -/
theorem C53_bytes {text path : Bytes} {v : Value} (hp : ¬ PrettyWith b!"\\" path) (h : get text path = .ok v) :
    ∀ b ∈ v.json, b ∈ text ∨ b ∈ path ∨ b ∈ ink :=
  (closed_ink (B := fun b => b ∈ text ∨ b ∈ path ∨ b ∈ ink) (fun _ h => .inr (.inr h)) reads_plain (by decide) (by decide)).get
    ⟨fun _ h => .inr (.inl h), hp⟩ text v (fun _ h => .inl h) h

/-- A text that is not JSON, and a path with a multipath, a query and modifiers. -/
example : ¬ PrettyWith b!"\\" b!"{k:#(a>1)#.b,@pretty:{\"indent\":\"--\"}}" ∧
    ∃ v, get b!"[{\"a\":2,\"b\":é" b!"{k:#(a>1)#.b,@pretty:{\"indent\":\"--\"}}" = .ok v ∧ v.exists = true :=
  ⟨by decide +kernel, found_of (by decide +kernel)⟩

/-- C53 without exception for the bytes outside ASCII, and only `\u` escapes left out: a
result has such a byte only if the text or the path has it. -/
theorem C53_high {text path : Bytes} {v : Value} (hp : ¬ PrettyWith b!"\\u" path) (h : get text path = .ok v) :
    ∀ b ∈ v.json, 0x80 ≤ b → b ∈ text ∨ b ∈ path := by
  have := (closed_ink (B := fun b => 0x80 ≤ b → b ∈ text ∨ b ∈ path)
    (by
      intro b hb h8
      exact absurd hb ((by decide : ∀ x ∈ ink, ¬ 0x80 ≤ x) b · h8))
    (reads_short fun c hc h8 => absurd hc (by grind)) (by decide) (by decide)).get
    ⟨fun _ h _ => .inr h, hp⟩ text v (fun _ h _ => .inl h) h
  exact this

/-- C53, ASCII: an ASCII text and an ASCII path give an ASCII result. -/
theorem C53_ascii {text path : Bytes} {v : Value} (ht : ∀ b ∈ text, b < 0x80) (hp : ∀ b ∈ path, b < 0x80)
    (hu : ¬ PrettyWith b!"\\u" path) (h : get text path = .ok v) : ∀ b ∈ v.json, b < 0x80 := by
  intro b hb
  by_cases h8 : b < 0x80
  · exact h8
  · rcases C53_high hu h b hb (by grind) with h1 | h1
    · exact ht b h1
    · exact hp b h1

/-- C36 for every ASCII text, JSON or not, and every ASCII path with any modifiers, except
`\u` escapes in the options of `@pretty`. -/
theorem C36_ascii_partial {text path : Bytes} {v : Value} (ht : ∀ b ∈ text, b < 0x80) (hp : ∀ b ∈ path, b < 0x80)
    (hu : ¬ PrettyWith b!"\\u" path) (h : get text path = .ok v) : IsUtf8 v.json ∧ ∀ s, v.str = .ok s → IsUtf8 s := by
  have ha := C53_ascii ht hp hu h
  have hj := ascii_utf8 ha
  refine ⟨hj, fun s hs => str_utf8_any (get_prov h) (fun _ _ _ => hj) (fun _ => ⟨?_, ?_⟩) (fun _ b hb hc => ?_) hs⟩
  · exact fun c hc => ha c (List.mem_of_mem_head? hc)
  · exact fun c hc => ha c (List.mem_of_getLast? hc)
  · obtain ⟨a, h1, h2, h3, h4, c, q, _, rfl, h5, _⟩ := hc
    have := ha c (by rw [hb]; simp)
    grind

/-- The exception is needed: an escape in the options can stand for anything. -/
theorem C53_escape_needed : ∃ v, get b!"{\"a\":1}" b!"@pretty:{\"indent\":\"\\u00e9\"}" = .ok v ∧
    0xC3 ∈ v.json ∧ (0xC3 : UInt8) ∉ b!"{\"a\":1}" ∧ (0xC3 : UInt8) ∉ b!"@pretty:{\"indent\":\"\\u00e9\"}" ∧ (0xC3 : UInt8) ∉ ink := by
  have : ∃ v, get b!"{\"a\":1}" b!"@pretty:{\"indent\":\"\\u00e9\"}" = .ok v ∧ 0xC3 ∈ v.json := found_of (by decide +kernel)
  obtain ⟨v, h1, h2⟩ := this
  exact ⟨v, h1, h2, by decide, by decide, by decide⟩

/-- C53 for `tools::pretty` and `PrettyOptions::pretty`: every byte of the output is from the
text, the prefix or the indentation, or is one of those written between them. -/
theorem C53_pretty {json out : Bytes} {o : PrettyOptions} (h : prettyOptions json o = .ok out) :
    ∀ b ∈ out, b ∈ json ∨ b ∈ o.pfx ∨ b ∈ o.indent ∨ b ∈ prettyInk :=
  prettyOptions_of (B := fun b => b ∈ json ∨ b ∈ o.pfx ∨ b ∈ o.indent ∨ b ∈ prettyInk) (fun _ h => .inr (.inr (.inr h)))
    (fun _ h => .inl h) (fun _ h => .inr (.inl h)) (fun _ h => .inr (.inr (.inl h))) h

example : prettyOptions b!"[é{\"a\":t" ⟨80, b!">", b!"--", true⟩ = .ok b!">[\n>--{\n>----\"a\": true\n" := by decide +kernel

/-- What `ugly` writes is what is there, without some bytes. -/
theorem pUgly_sublist : ∀ (n : Nat) (s : Bytes), s.length ≤ n → (pUgly s).Sublist s
  | _, [], _ => by rw [pUgly_nil]; exact .slnil
  | 0, c :: r, h => by simp at h
  | n + 1, c :: r, hn => by
    have hn : r.length ≤ n := by simpa using hn
    by_cases h1 : c ≤ c! ' '
    · rw [pUgly_skip h1]; exact (pUgly_sublist n r hn).cons _
    by_cases h2 : c = c! '"'
    · subst h2
      rw [pUgly_quote]
      have := sEnd_le r false
      conv => rhs; rw [← sEnd_append r false]
      exact ((List.Sublist.refl _).append (pUgly_sublist n _ (by omega))).cons_cons _
    · rw [pUgly_keep h1 h2]
      exact (pUgly_sublist n r hn).cons_cons _

/-- C53 for `tools::ugly`: it adds nothing and moves nothing, only drops bytes. -/
theorem C53_ugly (json : Bytes) : ∃ out, ugly json = .ok out ∧ out.Sublist json :=
  ⟨_, ugly_eq json, pUgly_sublist _ _ (Nat.le_refl _)⟩

example : ugly b!"[ é{\"a b" = .ok b!"[é{\"a b" := by decide +kernel

end Gjson
