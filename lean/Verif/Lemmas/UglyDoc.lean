import Verif.Lemmas.Tokens
/-
`ugly` on JSON texts: the tokens, one after the other.
-/
namespace Gjson
open Spec

theorem pUgly_ws {w : Bytes} (h : Ws w) (s : Bytes) : pUgly (w ++ s) = pUgly s := by
  induction w with
  | nil => rfl
  | cons c w ih =>
    have := h c (by simp)
    rw [List.cons_append, pUgly_skip (by unfold IsWs at this; grind), ih (fun x hx => h x (by simp [hx]))]

theorem pUgly_str {t : Bytes} (h : StrLit t) (r : Bytes) : pUgly (t ++ r) = t ++ pUgly r := by
  obtain ⟨b, hb, rfl⟩ := h
  have e : (c! '"' :: (b ++ [c! '"'])) ++ r = c! '"' :: (b ++ c! '"' :: r) := by simp
  rw [e, pUgly_quote, ← strSplit_eq, strSplit_body hb]
  simp

theorem pUgly_plain {t : Bytes} (h : ∀ c ∈ t, c! ' ' < c ∧ c ≠ c! '"') (r : Bytes) : pUgly (t ++ r) = t ++ pUgly r := by
  induction t with
  | nil => rfl
  | cons c t ih =>
    have := h c (by simp)
    rw [List.cons_append, pUgly_keep (by grind) this.2, ih (fun x hx => h x (by simp [hx]))]; rfl

theorem pUgly_struct {c : UInt8} (h : c ∈ structural) (r : Bytes) : pUgly (c :: r) = c :: pUgly r := by
  unfold structural at h
  simp only [List.mem_cons, List.not_mem_nil, or_false] at h
  exact pUgly_keep (by grind) (by grind) r

/-- The bytes of a scalar other than a string. -/
theorem leaf_bytes {t : Bytes} (h : IsValue t) (h1 : kindOf t ≠ .object) (h2 : kindOf t ≠ .array) :
    StrLit t ∨ (t ≠ [] ∧ ∀ c ∈ t, c! ' ' < c ∧ c ≠ c! '"') := by
  cases h with
  | null => right; decide
  | true => right; decide
  | false => right; decide
  | str h => exact .inl h
  | num h =>
    right
    refine ⟨fun e => ?_, fun c hc => ?_⟩
    · obtain ⟨c, q, hc, _⟩ := Gjson.IsValue.cons (.num h)
      rw [hc] at e; cases e
    have := numLit_numCh h c hc
    unfold NumCh at this
    grind (splits := 30)
  | arrEmpty _ => exact absurd rfl h2
  | arr _ _ _ => exact absurd rfl h2
  | objEmpty _ => exact absurd rfl h1
  | obj _ _ _ => exact absurd rfl h1

theorem pUgly_elems {es : List (Elem × Doc)} (hne : es ≠ []) (hw : ∀ e ∈ es, e.1.Wf)
    (ih : ∀ e ∈ es, ∀ r, pUgly (e.1.val ++ r) = e.2.toks.flatten ++ pUgly r) (r : Bytes) :
    pUgly (elemsText (es.map Prod.fst) ++ c! ']' :: r) = (elemToks (es.map Prod.snd)).flatten ++ c! ']' :: pUgly r := by
  induction es with
  | nil => exact absurd rfl hne
  | cons e es ihl =>
    have hW := hw e (by simp)
    have step : ∀ {c : UInt8} {r : Bytes}, c ∈ structural → pUgly (e.1.text ++ c :: r) = e.2.toks.flatten ++ c :: pUgly r := by
      intro c r hc
      unfold Elem.text
      simp only [List.append_assoc]
      rw [pUgly_ws hW.1, ih e (by simp) _, pUgly_ws hW.2, pUgly_struct hc]
    cases es with
    | nil => simpa [elemsText, elemToks] using step (by decide)
    | cons e' es =>
      have := ihl (by simp) (fun x hx => hw x (by simp [hx])) (fun x hx => ih x (by simp [hx]))
      simp only [List.map_cons, elemsText, elemToks, List.append_assoc, List.cons_append] at this ⊢
      rw [step (by decide), this]
      simp

theorem pUgly_members {ms : List (Member × Doc)} (hne : ms ≠ []) (hw : ∀ e ∈ ms, e.1.Wf)
    (ih : ∀ e ∈ ms, ∀ r, pUgly (e.1.val ++ r) = e.2.toks.flatten ++ pUgly r) (r : Bytes) :
    pUgly (membersText (ms.map Prod.fst) ++ c! '}' :: r) =
      (memToks (ms.map fun m => (m.1.key, m.2))).flatten ++ c! '}' :: pUgly r := by
  induction ms with
  | nil => exact absurd rfl hne
  | cons e es ihl =>
    have hW := hw e (by simp)
    have step : ∀ {c : UInt8} {r : Bytes}, c ∈ structural →
        pUgly (e.1.text ++ c :: r) = e.1.key ++ c! ':' :: (e.2.toks.flatten ++ c :: pUgly r) := by
      intro c r hc
      unfold Member.text
      simp only [List.append_assoc, List.cons_append]
      rw [pUgly_ws hW.1, pUgly_str hW.2.1, pUgly_ws hW.2.2.1, pUgly_struct (by decide), pUgly_ws hW.2.2.2.1,
        ih e (by simp) _, pUgly_ws hW.2.2.2.2, pUgly_struct hc]
    cases es with
    | nil => simpa [membersText, memToks] using step (by decide)
    | cons e' es =>
      have := ihl (by simp) (fun x hx => hw x (by simp [hx])) (fun x hx => ih x (by simp [hx]))
      simp only [List.map_cons, membersText, memToks, List.append_assoc, List.cons_append] at this ⊢
      rw [step (by decide), this]
      simp

theorem pUgly_value {v : Bytes} {d : Doc} (h : Denotes v d) : ∀ r, pUgly (v ++ r) = d.toks.flatten ++ pUgly r := by
  induction h with
  | leaf h h1 h2 =>
    intro r
    rcases leaf_bytes h h1 h2 with hs | ⟨hn, hp⟩
    · rw [pUgly_str hs]; simp [Doc.toks]
    · rw [pUgly_plain hp]; simp [Doc.toks]
  | arrEmpty hw =>
    intro r
    simp only [List.cons_append, List.append_assoc, List.nil_append]
    rw [pUgly_struct (by decide), pUgly_ws hw, pUgly_struct (by decide)]
    simp [Doc.toks, elemToks]
  | arr hne hw _ ih =>
    intro r
    simp only [List.cons_append, List.append_assoc, List.nil_append]
    rw [pUgly_struct (by decide), pUgly_elems hne hw ih]
    simp [Doc.toks]
  | objEmpty hw =>
    intro r
    simp only [List.cons_append, List.append_assoc, List.nil_append]
    rw [pUgly_struct (by decide), pUgly_ws hw, pUgly_struct (by decide)]
    simp [Doc.toks, memToks]
  | obj hne hw _ ih =>
    intro r
    simp only [List.cons_append, List.append_assoc, List.nil_append]
    rw [pUgly_struct (by decide), pUgly_members hne hw ih]
    simp [Doc.toks]

/-- `ugly` of a JSON text is the text of the tokens. -/
theorem pUgly_padded {v t : Bytes} {d : Doc} (h : Denotes v d) (hp : Padded v t) : pUgly t = d.toks.flatten := by
  obtain ⟨w1, w2, h1, h2, rfl⟩ := hp
  rw [pUgly_ws h1, pUgly_value h]
  have := pUgly_ws h2 []
  rw [List.append_nil, pUgly_nil] at this
  rw [this, List.append_nil]

theorem elemsText_bare {es : List (Elem × Doc)} {f : Elem × Doc → Bytes} (hf : ∀ e ∈ es, f e = e.2.toks.flatten) :
    elemsText (es.map fun e => ⟨[], f e, []⟩) = (elemToks (es.map Prod.snd)).flatten := by
  induction es with
  | nil => rfl
  | cons e es ih =>
    cases es with
    | nil => simp [elemsText, Elem.text, elemToks, hf]
    | cons e' es =>
      have := ih (fun x hx => hf x (by simp [hx]))
      simp only [List.map_cons, elemsText, elemToks, Elem.text, List.nil_append, List.append_nil, List.flatten_append, List.flatten_cons] at this ⊢
      rw [this, hf e (by simp)]; simp

theorem membersText_bare {es : List (Member × Doc)} {f : Member × Doc → Bytes} (hf : ∀ e ∈ es, f e = e.2.toks.flatten) :
    membersText (es.map fun e => ⟨[], e.1.key, [], [], f e, []⟩) = (memToks (es.map fun m => (m.1.key, m.2))).flatten := by
  induction es with
  | nil => rfl
  | cons e es ih =>
    cases es with
    | nil => simp [membersText, Member.text, memToks, hf]
    | cons e' es =>
      have := ih (fun x hx => hf x (by simp [hx]))
      simp only [List.map_cons, membersText, memToks, Member.text, List.nil_append, List.append_nil, List.flatten_append, List.flatten_cons] at this ⊢
      rw [this, hf e (by simp)]; simp

theorem ws_nil : Ws [] := by intro c hc; simp at hc

/-- The tokens of a document, one after the other, are a text for it. -/
theorem denotes_bare {v : Bytes} {d : Doc} (h : Denotes v d) : Denotes d.toks.flatten d := by
  induction h with
  | leaf h h1 h2 => simpa [Doc.toks] using Denotes.leaf h h1 h2
  | arrEmpty _ => simpa [Doc.toks, elemToks] using Denotes.arrEmpty ws_nil
  | @arr es hne _ _ ih =>
    have := Denotes.arr (es := es.map fun e => ((⟨[], e.2.toks.flatten, []⟩ : Elem), e.2)) (by simpa using hne)
      (by intro e he; obtain ⟨x, hx, rfl⟩ := List.mem_map.1 he; exact ⟨ws_nil, ws_nil⟩)
      (by intro e he; obtain ⟨x, hx, rfl⟩ := List.mem_map.1 he; exact ih x hx)
    simp only [List.map_map, Function.comp_def] at this
    rw [elemsText_bare (fun e _ => rfl)] at this
    simpa [Doc.toks] using this
  | objEmpty _ => simpa [Doc.toks, memToks] using Denotes.objEmpty ws_nil
  | @obj es hne hw _ ih =>
    have := Denotes.obj (ms := es.map fun e => ((⟨[], e.1.key, [], [], e.2.toks.flatten, []⟩ : Member), e.2)) (by simpa using hne)
      (by intro e he; obtain ⟨x, hx, rfl⟩ := List.mem_map.1 he; exact ⟨ws_nil, (hw x hx).2.1, ws_nil, ws_nil, ws_nil⟩)
      (by intro e he; obtain ⟨x, hx, rfl⟩ := List.mem_map.1 he; exact ih x hx)
    simp only [List.map_map, Function.comp_def] at this
    rw [membersText_bare (fun e _ => rfl)] at this
    simpa [Doc.toks] using this

/-! ### Idempotence on all byte strings -/

theorem sEnd_stable : ∀ (s x : Bytes) (e : Bool), ((sEnd e s).2 = [] → x = []) → sEnd e ((sEnd e s).1 ++ x) = ((sEnd e s).1, x)
  | [], x, e, h => by simp [sEnd] at h; subst h; rfl
  | c :: r, x, e, h => by
    by_cases hc : c = c! '"' ∧ e = false
    · have E : sEnd e (c :: r) = ([c], r) := by rw [sEnd, if_pos hc]
      rw [E]
      simp only [List.cons_append, List.nil_append]
      rw [sEnd, if_pos hc]
    · have E : ∀ s, sEnd e (c :: s) = (c :: (sEnd (!e && decide (c = c! '\\')) s).1, (sEnd (!e && decide (c = c! '\\')) s).2) := by
        intro s; rw [sEnd, if_neg hc]
      rw [E] at h ⊢
      have := sEnd_stable r x (!e && decide (c = c! '\\')) h
      simp only [List.cons_append]
      rw [E, this]

theorem pUgly_idem : ∀ s : Bytes, pUgly (pUgly s) = pUgly s := by
  intro s
  generalize hn : s.length = n
  induction n using Nat.strongRecOn generalizing s with
  | ind n ih =>
    cases s with
    | nil => rw [pUgly_nil, pUgly_nil]
    | cons c r =>
      subst hn
      by_cases h1 : c ≤ c! ' '
      · rw [pUgly_skip h1]; exact ih r.length (by simp) r rfl
      · by_cases h2 : c = c! '"'
        · subst h2
          rw [pUgly_quote, pUgly_quote, sEnd_stable r _ false (by intro h; rw [h, pUgly_nil])]
          simp only
          rw [ih _ (by have := sEnd_le r false; simp; omega) _ rfl]
        · rw [pUgly_keep h1 h2, pUgly_keep h1 h2, ih r.length (by simp) r rfl]

end Gjson
