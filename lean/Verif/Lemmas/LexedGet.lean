import Verif.Lemmas.Lexed
import Verif.Lemmas.Closed
/-
What the search finds in a text of whole tokens is a text of whole tokens.
-/
namespace Gjson
open Spec

variable {Q : Bytes → Prop}

theorem inTokens_nil : InTokens Q [] := ⟨true, .nil⟩

theorem Spec.Lexed.inTokens {a e : Bool} {s : Bytes} (h : Lexed Q a s e) : InTokens Q s := h.up

/-! ### Consecutive values -/

theorem tokVal_json (i : Nat) (o : Option (Bytes × UInt32)) : (tokVal i o).json = match o with | none => [] | some x => x.1 := by
  cases o with
  | none => rfl
  | some x => exact mkVal_json _ _ _

theorem tokVal_lexed {a e : Bool} {s : Bytes} (h : Lexed Q a s e) (i : Nat) : InTokens Q (tokVal i (leafTok s).1).json := by
  have := (leafTok_lexed h).2
  rw [tokVal_json]
  cases ho : (leafTok s).1 with
  | none => exact inTokens_nil
  | some x =>
    obtain ⟨v, info⟩ := x
    by_cases hv : v = []
    · subst hv; exact inTokens_nil
    · obtain ⟨_, m, h1, _⟩ := this v info ho hv
      exact ⟨m, h1⟩

theorem toks_lexed (i : Nat) (s : Bytes) : ∀ {a e : Bool}, Lexed Q a s e → ∀ v ∈ toks i s, InTokens Q v.json := by
  fun_induction toks i s with
  | case1 => intro a e _ v hv; simp at hv
  | case2 i c r hc ih =>
    intro a e h
    rcases hc with hc | hc
    · exact ih (h.blank hc).2
    · exact ih (h.mark (by rcases hc with rfl | rfl <;> decide))
  | case3 i c r h1 h2 => intro a e _ v hv; simp at hv
  | case4 i c r h1 h2 h3 h4 ih =>
    intro a e h v hv
    rcases List.mem_cons.1 hv with rfl | hv
    · exact tokVal_lexed h i
    · obtain ⟨e', h'⟩ := (leafTok_lexed h).1
      exact ih h' v hv
  | case5 => intro a e _ v hv; simp at hv

theorem eachToks_lexed {i : Nat} {lines : Bool} {s : Bytes} (h : InTokens Q s) (hl : lines = true ∨ ∃ c, s.head? = some c ∧ (c = c! '{' ∨ c = c! '[')) :
    ∀ v ∈ eachToks i lines s, InTokens Q v.json := by
  obtain ⟨e, h⟩ := h
  unfold eachToks
  split
  · exact toks_lexed _ _ h
  · rcases hl with hl | ⟨c, h1, h2⟩
    · contradiction
    · cases s with
      | nil => simp at h1
      | cons d r =>
        simp only [List.head?_cons, Option.some.injEq] at h1
        subst h1
        exact toks_lexed _ _ (h.bracket h2).2

/-! ### Objects -/

/-- Inside of a text of tokens, perhaps inside of a token other than a string. -/
def Amid (Q : Bytes → Prop) (s : Bytes) : Prop := ∃ w t, s = w ++ t ∧ (∀ c ∈ w, c ≠ c! '"' ∧ c ≠ c! '}') ∧ InTokens Q t

theorem Spec.InTokens.amid {s : Bytes} (h : InTokens Q s) : Amid Q s := ⟨[], s, rfl, by simp, h⟩

theorem Amid.quote {r : Bytes} (h : Amid Q (c! '"' :: r)) : InTokens Q (c! '"' :: r) := by
  obtain ⟨w, t, h1, h2, h3⟩ := h
  cases w with
  | nil => rw [h1]; exact h3
  | cons c w =>
    simp only [List.cons_append, List.cons.injEq] at h1
    exact absurd h1.1.symm (h2 c (by simp)).1

theorem Amid.close {r : Bytes} (h : Amid Q (c! '}' :: r)) : InTokens Q r := by
  obtain ⟨w, t, h1, h2, h3⟩ := h
  cases w with
  | nil =>
    obtain ⟨e, h3⟩ := h3
    simp only [List.nil_append] at h1
    subst h1
    exact ⟨e, h3.mark (by decide)⟩
  | cons c w =>
    simp only [List.cons_append, List.cons.injEq] at h1
    exact absurd h1.1.symm (h2 c (by simp)).2

theorem Amid.skip {c : UInt8} {r : Bytes} (h : Amid Q (c :: r)) (hc : c ≠ c! '"') : Amid Q r := by
  obtain ⟨w, t, h1, h2, h3⟩ := h
  cases w with
  | cons d w =>
    simp only [List.cons_append, List.cons.injEq] at h1
    exact ⟨w, t, h1.2, fun x hx => h2 x (by simp [hx]), h3⟩
  | nil =>
    obtain ⟨e, h3⟩ := h3
    simp only [List.nil_append] at h1
    subst h1
    cases h3.heads with
    | ws _ h => exact h.inTokens.amid
    | sep _ h => exact h.inTokens.amid
    | opn _ _ h => exact h.inTokens.amid
    | num t q _ _ hr hn _ h =>
      refine ⟨t, q, hr, ?_, h.inTokens⟩
      intro x hx
      constructor <;> rintro rfl
      · exact absurd (numLit_numCh hn (c! '"') (by simp [hx])) (by decide)
      · exact absurd (numLit_numCh hn (c! '}') (by simp [hx])) (by decide)
    | word t q _ hw hr _ h =>
      refine ⟨t, q, hr, ?_, h.inTokens⟩
      have : ∀ w ∈ [b!"true", b!"false", b!"null"], ∀ c ∈ w, c ≠ c! '"' ∧ c ≠ c! '}' := by decide
      exact fun x hx => this _ hw x (by simp [hx])
    | str _ _ _ h _ _ _ _ => exact absurd h hc

theorem pSkipColon_lexed : ∀ {s : Bytes} {a e : Bool}, Lexed Q a s e → InTokens Q (pSkipColon s)
  | [], _, _, _ => inTokens_nil
  | c :: r, a, e, h => by
    unfold pSkipColon
    split
    · rename_i hc
      rcases hc with hc | hc
      · exact pSkipColon_lexed (h.blank hc).2
      · exact pSkipColon_lexed (h.mark (by rw [hc]; decide))
    · exact h.inTokens

theorem gObjLoop_lexed {d : Bytes → Res (Value × Path)} {p : Path} (L : Nat) : ∀ (s : Bytes), Amid Q s →
    (∀ c t, InTokens Q (c :: t) → (c = c! '{' ∨ c = c! '[') → ∀ x, p.dives = true → d (c :: t) = .ok x → InTokens Q x.1.json) →
    ∀ x, gObjLoop d L p s = .ok x → InTokens Q x.1.json := by
  intro s
  generalize hn : s.length = n
  induction n using Nat.strongRecOn generalizing s with
  | ind n ih =>
    intro hs hd x h
    cases s with
    | nil => rw [gObjLoop_nil] at h; cases h; exact inTokens_nil
    | cons c r =>
      have next : ∀ t, t.length < n → Amid Q t → gObjLoop d L p t = .ok x → InTokens Q x.1.json := by
        intro t hl ht hx
        exact ih t.length hl t rfl ht hd x hx
      by_cases h1 : c = c! '}'
      · subst h1; rw [gObjLoop_close] at h; cases h; exact inTokens_nil
      by_cases h2 : c = c! '"'
      · subst h2
        cases hq : qStr r with
        | none => rw [gObjLoop_nokey _ _ _ hq] at h; cases h; exact inTokens_nil
        | some y =>
          obtain ⟨b, f, q⟩ := y
          have hql := qStr_lt hq
          obtain ⟨e, hs'⟩ := hs.quote
          obtain ⟨_, b', q', _, _, _, g1, g2, _⟩ := hs'.quote
          rw [hq] at g2
          simp only [Option.some.injEq, Prod.mk.injEq] at g2
          obtain ⟨_, _, rfl⟩ := g2
          have hv' := pSkipColon_lexed g1
          cases hv : pSkipColon q with
          | nil => rw [gObjLoop_noval _ _ _ hq hv] at h; cases h; exact inTokens_nil
          | cons c2 r2 =>
            rw [hv] at hv'
            have hle := pSkipColon_le q
            have hlt : (c2 :: r2).length < n := by rw [hv] at hle; simp only [List.length_cons] at hn hle ⊢; omega
            have htl : (leafTok (c2 :: r2)).2.length < n := by
              have := leafTok_lt (s := c2 :: r2) (by simp); omega
            obtain ⟨e2, hl2⟩ := hv'
            have hts : InTokens Q (leafTok (c2 :: r2)).2 := (leafTok_lexed hl2).1
            have hp := tokVal_lexed hl2 (L - (c2 :: r2).length)
            rw [gObjLoop_key _ _ _ hq hv] at h
            split at h
            · split at h
              · rename_i hdv
                obtain ⟨⟨res, p'⟩, h3, h4⟩ := bind_eq_ok.1 h
                simp only at h4
                split at h4
                · cases h4; exact hd _ _ hl2.inTokens hdv.2 _ hdv.1 h3
                · exact next _ hlt hl2.inTokens.amid h4
              · split at h
                · cases h; exact hp
                · exact next _ htl hts.amid h
            · exact next _ htl hts.amid h
      · rw [gObjLoop_skip _ _ _ _ h1 h2] at h
        exact next r (by simp at hn; omega) (hs.skip h2) h

theorem pParse_lexed : ∀ (i : Nat) {s : Bytes} {a e : Bool}, Lexed Q a s e → InTokens Q (pParse i s).json
  | _, [], _, _, _ => inTokens_nil
  | i, c :: r, a, e, h => by
    unfold pParse
    split
    · rename_i hc
      exact pParse_lexed (i + 1) (h.blank hc).2
    split
    · rw [mkVal_json]; exact h.inTokens
    split
    · rw [mkVal_json]; exact h.inTokens
    split
    · exact tokVal_lexed h i
    · exact inTokens_nil

end Gjson
