import Verif.SpecDoc
import Verif.Lemmas.JsonVal
import Verif.Lemmas.Ugly
/-
Tokens of JSON texts: the tokens of a value text are those of its document, and a
text with the tokens of a document is a JSON text for that document.
-/
namespace Gjson
open Spec

theorem tokens_nil : tokens [] = [] := by rw [tokens.eq_def]
theorem tokens_wsCons {c : UInt8} (h : IsWs c) (r : Bytes) : tokens (c :: r) = tokens r := by
  rw [tokens.eq_def]; simp only; rw [if_pos h]
theorem tokens_quote (r : Bytes) : tokens (c! '"' :: r) = (c! '"' :: (strSplit false r).1) :: tokens (strSplit false r).2 := by
  rw [tokens.eq_def]; simp only; rw [if_neg (by decide), if_pos trivial]
theorem tokens_struct {c : UInt8} (h : c ∈ structural) (r : Bytes) : tokens (c :: r) = [c] :: tokens r := by
  have h1 : ¬ IsWs c := by unfold structural at h; unfold IsWs; simp at h; grind
  have h2 : c ≠ c! '"' := by unfold structural at h; simp at h; grind
  rw [tokens.eq_def]; simp only; rw [if_neg h1, if_neg h2, if_pos h]
theorem tokens_run {c : UInt8} (h : ¬ IsBreak c) (r : Bytes) :
    tokens (c :: r) = (c :: r.takeWhile fun c => ¬ IsBreak c) :: tokens (r.dropWhile fun c => ¬ IsBreak c) := by
  unfold IsBreak at h
  rw [tokens.eq_def]; simp only; rw [if_neg (fun x => h (.inl x)), if_neg (fun x => h (.inr (.inr x))), if_neg (fun x => h (.inr (.inl x)))]

theorem tokens_ws {w : Bytes} (h : Ws w) (s : Bytes) : tokens (w ++ s) = tokens s := by
  induction w with
  | nil => rfl
  | cons c w ih => rw [List.cons_append, tokens_wsCons (h c (by simp)), ih (fun x hx => h x (by simp [hx]))]

theorem strSplit_eq (s : Bytes) : ∀ e, strSplit e s = sEnd e s := by
  induction s with
  | nil => intro e; rfl
  | cons c r ih => intro e; unfold strSplit sEnd; simp only [ih]

theorem strSplit_append (s : Bytes) (e : Bool) : (strSplit e s).1 ++ (strSplit e s).2 = s := by
  rw [strSplit_eq]; exact sEnd_append s e

theorem strSplit_body {b : Bytes} (h : StrBody b) (r : Bytes) : strSplit false (b ++ c! '"' :: r) = (b ++ [c! '"'], r) := by
  have hplain : ∀ {c : UInt8} {s : Bytes}, c ≠ c! '"' → c ≠ c! '\\' → strSplit false (c :: s) = (c :: (strSplit false s).1, (strSplit false s).2) := by
    intro c s h1 h2
    rw [strSplit, if_neg (by simp [h1])]
    simp [h2]
  have hesc : ∀ {c : UInt8} {s : Bytes}, strSplit false (c! '\\' :: c :: s) = (c! '\\' :: c :: (strSplit false s).1, (strSplit false s).2) := by
    intro c s
    rw [strSplit, if_neg (by simp), strSplit, if_neg (by simp)]
    simp
  induction h with
  | nil => simp [strSplit]
  | plain h1 h2 h3 _ ih => rw [List.cons_append, hplain h2 h3, ih]; rfl
  | esc _ _ ih => rw [List.cons_append, List.cons_append, hesc, ih]; rfl
  | uni h1 h2 h3 h4 _ ih =>
    have hh : ∀ {c : UInt8}, IsHex c → c ≠ c! '"' ∧ c ≠ c! '\\' := by intro c h; unfold IsHex at h; grind
    simp only [List.cons_append]
    rw [hesc, hplain (hh h1).1 (hh h1).2, hplain (hh h2).1 (hh h2).2, hplain (hh h3).1 (hh h3).2, hplain (hh h4).1 (hh h4).2, ih]

theorem tokens_str {t : Bytes} (h : StrLit t) (r : Bytes) : tokens (t ++ r) = t :: tokens r := by
  obtain ⟨b, hb, rfl⟩ := h
  have e : (c! '"' :: (b ++ [c! '"'])) ++ r = c! '"' :: (b ++ c! '"' :: r) := by simp
  rw [e, tokens_quote, strSplit_body hb]

/-- Empty or starting with a byte that ends a token. -/
def Break (r : Bytes) : Prop := ∀ c ∈ r.head?, IsBreak c

theorem Break.nil : Break [] := by intro c hc; simp at hc
theorem Break.cons {c : UInt8} {r : Bytes} (h : IsBreak c) : Break (c :: r) := by
  intro d hd; simp at hd; subst hd; exact h
theorem Break.struct {c : UInt8} {r : Bytes} (h : c ∈ structural) : Break (c :: r) := .cons (.inr (.inl h))
theorem Break.ws {w r : Bytes} (h : Ws w) (hr : Break r) : Break (w ++ r) := by
  cases w with
  | nil => exact hr
  | cons c w => exact .cons (.inl (h c (by simp)))
theorem Follow.break {r : Bytes} (h : Follow r) : Break r := by
  intro c hc
  have := h c hc
  unfold IsBreak structural
  simp only [List.mem_cons, List.not_mem_nil, or_false]
  grind

theorem tokens_plain {t : Bytes} (hne : t ≠ []) (ht : ∀ c ∈ t, ¬ IsBreak c) {r : Bytes} (hr : Break r) :
    tokens (t ++ r) = t :: tokens r := by
  cases t with
  | nil => exact absurd rfl hne
  | cons c t =>
    rw [List.cons_append, tokens_run (ht c (by simp))]
    have h1 : ∀ x ∈ t, decide (¬ IsBreak x) = true := fun x hx => by simpa using ht x (by simp [hx])
    have h2 : r.takeWhile (fun c => decide (¬ IsBreak c)) = [] ∧ r.dropWhile (fun c => decide (¬ IsBreak c)) = r := by
      cases r with
      | nil => exact ⟨rfl, rfl⟩
      | cons d r =>
        have := hr d (by simp)
        constructor
        · rw [List.takeWhile_cons_of_neg (by simpa using this)]
        · rw [List.dropWhile_cons_of_neg (by simpa using this)]
    rw [List.takeWhile_append_of_pos h1, List.dropWhile_append_of_pos h1, h2.1, h2.2, List.append_nil]

/-- A scalar that is no string has no byte that ends a token. -/
theorem leaf_plain {t : Bytes} (h : IsValue t) (h1 : kindOf t ≠ .object) (h2 : kindOf t ≠ .array) :
    StrLit t ∨ (t ≠ [] ∧ ∀ c ∈ t, ¬ IsBreak c) := by
  cases h with
  | null => right; decide
  | true => right; decide
  | false => right; decide
  | str h => exact .inl h
  | num h =>
    right
    refine ⟨fun e => ?_, fun c hc => ?_⟩
    · obtain ⟨c, q, hc, _⟩ := Gjson.IsValue.cons (.num h)
      rw [hc] at e; cases e
    have := numLit_numCh h c hc
    unfold IsBreak IsWs structural
    simp only [List.mem_cons, List.not_mem_nil, or_false]
    unfold NumCh at this
    grind (splits := 30)
  | arrEmpty _ => exact absurd rfl h2
  | arr _ _ _ => exact absurd rfl h2
  | objEmpty _ => exact absurd rfl h1
  | obj _ _ _ => exact absurd rfl h1

theorem break_close {c : UInt8} (h : c ∈ structural) {w r : Bytes} (hw : Ws w) : Break (w ++ c :: r) := .ws hw (.struct h)

theorem tokens_elems {es : List (Elem × Doc)} (hne : es ≠ []) (hw : ∀ e ∈ es, e.1.Wf)
    (ih : ∀ e ∈ es, ∀ r, Break r → tokens (e.1.val ++ r) = e.2.toks ++ tokens r) (r : Bytes) :
    tokens (elemsText (es.map Prod.fst) ++ c! ']' :: r) = elemToks (es.map Prod.snd) ++ [c! ']'] :: tokens r := by
  induction es with
  | nil => exact absurd rfl hne
  | cons e es ihl =>
    have hW := hw e (by simp)
    have step : ∀ {c : UInt8} {r : Bytes}, c ∈ structural → tokens (e.1.text ++ c :: r) = e.2.toks ++ [c] :: tokens r := by
      intro c r hc
      unfold Elem.text
      simp only [List.append_assoc]
      rw [tokens_ws hW.1, ih e (by simp) _ (break_close hc hW.2), tokens_ws hW.2, tokens_struct hc]
    cases es with
    | nil => simpa [elemsText, elemToks] using step (by decide)
    | cons e' es =>
      have := ihl (by simp) (fun x hx => hw x (by simp [hx])) (fun x hx => ih x (by simp [hx]))
      simp only [List.map_cons, elemsText, elemToks, List.append_assoc, List.cons_append] at this ⊢
      rw [step (by decide), this]

theorem tokens_members {ms : List (Member × Doc)} (hne : ms ≠ []) (hw : ∀ e ∈ ms, e.1.Wf)
    (ih : ∀ e ∈ ms, ∀ r, Break r → tokens (e.1.val ++ r) = e.2.toks ++ tokens r) (r : Bytes) :
    tokens (membersText (ms.map Prod.fst) ++ c! '}' :: r) =
      memToks (ms.map fun m => (m.1.key, m.2)) ++ [c! '}'] :: tokens r := by
  induction ms with
  | nil => exact absurd rfl hne
  | cons e es ihl =>
    have hW := hw e (by simp)
    have step : ∀ {c : UInt8} {r : Bytes}, c ∈ structural →
        tokens (e.1.text ++ c :: r) = e.1.key :: [c! ':'] :: (e.2.toks ++ [c] :: tokens r) := by
      intro c r hc
      unfold Member.text
      simp only [List.append_assoc, List.cons_append]
      rw [tokens_ws hW.1, tokens_str hW.2.1, tokens_ws hW.2.2.1, tokens_struct (by decide), tokens_ws hW.2.2.2.1,
        ih e (by simp) _ (break_close hc hW.2.2.2.2), tokens_ws hW.2.2.2.2, tokens_struct hc]
    cases es with
    | nil => simpa [membersText, memToks] using step (by decide)
    | cons e' es =>
      have := ihl (by simp) (fun x hx => hw x (by simp [hx])) (fun x hx => ih x (by simp [hx]))
      simp only [List.map_cons, membersText, memToks, List.append_assoc, List.cons_append] at this ⊢
      rw [step (by decide), this]

/-- The tokens of a value text are those of its document. -/
theorem tokens_value {v : Bytes} {d : Doc} (h : Denotes v d) : ∀ r, Break r → tokens (v ++ r) = d.toks ++ tokens r := by
  induction h with
  | leaf h h1 h2 =>
    intro r hr
    rcases leaf_plain h h1 h2 with hs | ⟨hn, hp⟩
    · rw [tokens_str hs]; rfl
    · rw [tokens_plain hn hp hr]; rfl
  | arrEmpty hw =>
    intro r _
    simp only [List.cons_append, List.append_assoc, List.nil_append]
    rw [tokens_struct (by decide), tokens_ws hw, tokens_struct (by decide)]
    simp [Doc.toks, elemToks]
  | arr hne hw _ ih =>
    intro r _
    simp only [List.cons_append, List.append_assoc, List.nil_append]
    rw [tokens_struct (by decide), tokens_elems hne hw ih]
    simp [Doc.toks]
  | objEmpty hw =>
    intro r _
    simp only [List.cons_append, List.append_assoc, List.nil_append]
    rw [tokens_struct (by decide), tokens_ws hw, tokens_struct (by decide)]
    simp [Doc.toks, memToks]
  | obj hne hw _ ih =>
    intro r _
    simp only [List.cons_append, List.append_assoc, List.nil_append]
    rw [tokens_struct (by decide), tokens_members hne hw ih]
    simp [Doc.toks]

theorem tokens_value' {v : Bytes} {d : Doc} (h : Denotes v d) : tokens v = d.toks := by
  have := tokens_value h [] .nil
  simpa [tokens_nil] using this

theorem kindOf_num {t : Bytes} (h : NumLit t) : kindOf t = .number := by
  obtain ⟨c, q, rfl, _⟩ := Gjson.IsValue.cons (.num h)
  have := numLit_numCh h c (by simp)
  unfold NumCh at this
  unfold kindOf
  simp only
  repeat (rw [if_neg (by grind)])

/-- Every JSON value denotes a document. -/
theorem denotes_of_value {v : Bytes} (h : IsValue v) : ∃ d, Denotes v d := by
  induction h with
  | null => exact ⟨_, .leaf .null (by decide) (by decide)⟩
  | true => exact ⟨_, .leaf .true (by decide) (by decide)⟩
  | false => exact ⟨_, .leaf .false (by decide) (by decide)⟩
  | str h =>
    refine ⟨_, .leaf (.str h) ?_ ?_⟩ <;> (obtain ⟨b, _, rfl⟩ := h; simp [kindOf])
  | num h =>
    have hk := kindOf_num h
    exact ⟨_, .leaf (.num h) (by rw [hk]; decide) (by rw [hk]; decide)⟩
  | arrEmpty hw => exact ⟨_, .arrEmpty hw⟩
  | @arr es hne hw _ ih =>
    have : ∃ ds : List (Elem × Doc), ds.map Prod.fst = es ∧ ∀ e ∈ ds, Denotes e.1.val e.2 := by
      clear hne hw
      induction es with
      | nil => exact ⟨[], rfl, by simp⟩
      | cons e es ihl =>
        obtain ⟨ds, h1, h2⟩ := ihl (fun x hx => by rename_i hv; exact hv x (by simp [hx])) (fun x hx => ih x (by simp [hx]))
        obtain ⟨d, hd⟩ := ih e (by simp)
        exact ⟨(e, d) :: ds, by simp [h1], by simpa [hd] using h2⟩
    obtain ⟨ds, rfl, h2⟩ := this
    exact ⟨_, .arr (by simpa using hne) (fun e he => hw _ (List.mem_map_of_mem he)) h2⟩
  | objEmpty hw => exact ⟨_, .objEmpty hw⟩
  | @obj es hne hw _ ih =>
    have : ∃ ds : List (Member × Doc), ds.map Prod.fst = es ∧ ∀ e ∈ ds, Denotes e.1.val e.2 := by
      clear hne hw
      induction es with
      | nil => exact ⟨[], rfl, by simp⟩
      | cons e es ihl =>
        obtain ⟨ds, h1, h2⟩ := ihl (fun x hx => by rename_i hv; exact hv x (by simp [hx])) (fun x hx => ih x (by simp [hx]))
        obtain ⟨d, hd⟩ := ih e (by simp)
        exact ⟨(e, d) :: ds, by simp [h1], by simpa [hd] using h2⟩
    obtain ⟨ds, rfl, h2⟩ := this
    exact ⟨_, .obj (by simpa using hne) (fun e he => hw _ (List.mem_map_of_mem he)) h2⟩

theorem value_of_denotes {v : Bytes} {d : Doc} (h : Denotes v d) : IsValue v := by
  induction h with
  | leaf h _ _ => exact h
  | arrEmpty hw => exact .arrEmpty hw
  | arr hne hw _ ih =>
    refine .arr (by simpa using hne) ?_ ?_
    · intro e he; obtain ⟨x, hx, rfl⟩ := List.mem_map.1 he; exact hw x hx
    · intro e he; obtain ⟨x, hx, rfl⟩ := List.mem_map.1 he; exact ih x hx
  | objEmpty hw => exact .objEmpty hw
  | obj hne hw _ ih =>
    refine .obj (by simpa using hne) ?_ ?_
    · intro e he; obtain ⟨x, hx, rfl⟩ := List.mem_map.1 he; exact hw x hx
    · intro e he; obtain ⟨x, hx, rfl⟩ := List.mem_map.1 he; exact ih x hx

/-! ### From tokens back to texts -/

theorem ws_of_tokens : ∀ {s : Bytes}, tokens s = [] → Ws s
  | [], _ => by intro c hc; simp at hc
  | c :: r, h => by
    by_cases h1 : IsWs c
    · rw [tokens_wsCons h1] at h
      have := ws_of_tokens h
      intro x hx
      rcases List.mem_cons.1 hx with rfl | hx
      · exact h1
      · exact this x hx
    · by_cases h2 : c = c! '"'
      · subst h2; rw [tokens_quote] at h; cases h
      · by_cases h3 : c ∈ structural
        · rw [tokens_struct h3] at h; cases h
        · rw [tokens_run (by unfold IsBreak; simp [h1, h2, h3])] at h; cases h

theorem tokens_cons : ∀ {s t : Bytes} {ts : List Bytes}, tokens s = t :: ts →
    ∃ w r, Ws w ∧ s = w ++ (t ++ r) ∧ tokens r = ts
  | [], t, ts, h => by rw [tokens_nil] at h; cases h
  | c :: r, t, ts, h => by
    by_cases h1 : IsWs c
    · rw [tokens_wsCons h1] at h
      obtain ⟨w, q, hw, rfl, hq⟩ := tokens_cons h
      refine ⟨c :: w, q, ?_, rfl, hq⟩
      intro x hx
      rcases List.mem_cons.1 hx with rfl | hx
      · exact h1
      · exact hw x hx
    · have hn : Ws [] := by intro c hc; simp at hc
      by_cases h2 : c = c! '"'
      · subst h2; rw [tokens_quote] at h
        cases h
        exact ⟨[], _, hn, by simp [strSplit_append], rfl⟩
      · by_cases h3 : c ∈ structural
        · rw [tokens_struct h3] at h; cases h
          exact ⟨[], _, hn, by simp, rfl⟩
        · rw [tokens_run (by unfold IsBreak; simp [h1, h2, h3])] at h; cases h
          exact ⟨[], _, hn, by simp [List.takeWhile_append_dropWhile], rfl⟩

/-- Texts whose tokens start with those of the document start with a text for it. -/
def Reads (d : Doc) : Prop := ∀ (u : Bytes) (ts : List Bytes), tokens u = d.toks ++ ts →
  ∃ w v r, u = w ++ (v ++ r) ∧ Ws w ∧ Denotes v d ∧ tokens r = ts

theorem reads_elems {c : UInt8} : ∀ {ds : List Doc}, ds ≠ [] → (∀ d ∈ ds, Reads d) → ∀ (u : Bytes) (ts : List Bytes),
    tokens u = elemToks ds ++ [c] :: ts →
    ∃ (es : List (Elem × Doc)) (r : Bytes), es.map Prod.snd = ds ∧ (∀ e ∈ es, e.1.Wf) ∧ (∀ e ∈ es, Denotes e.1.val e.2) ∧
      u = elemsText (es.map Prod.fst) ++ c :: r ∧ tokens r = ts
  | [], h, _, _, _, _ => absurd rfl h
  | [d], _, hd, u, ts, h => by
    simp only [elemToks] at h
    obtain ⟨w, v, r, rfl, hw, hv, hr⟩ := hd d (by simp) u _ h
    obtain ⟨w', r', hw', rfl, hr'⟩ := tokens_cons hr
    exact ⟨[(⟨w, v, w'⟩, d)], r', rfl, by simpa using ⟨hw, hw'⟩, by simpa using hv, by simp [elemsText, Elem.text], hr'⟩
  | d :: d' :: ds, _, hd, u, ts, h => by
    simp only [elemToks, List.append_assoc, List.cons_append] at h
    obtain ⟨w, v, r, rfl, hw, hv, hr⟩ := hd d (by simp) u _ h
    obtain ⟨w', r', hw', rfl, hr'⟩ := tokens_cons hr
    obtain ⟨es, q, h1, h2, h3, h4, h5⟩ := reads_elems (by simp) (fun x hx => hd x (by simp [hx])) r' ts hr'
    subst h4
    cases es with
    | nil => simp at h1
    | cons e es =>
      refine ⟨(⟨w, v, w'⟩, d) :: e :: es, q, by simpa using h1, ?_, ?_, by simp [elemsText, Elem.text], h5⟩
      · intro x hx
        rcases List.mem_cons.1 hx with rfl | hx
        · exact ⟨hw, hw'⟩
        · exact h2 x hx
      · intro x hx
        rcases List.mem_cons.1 hx with rfl | hx
        · exact hv
        · exact h3 x hx

theorem reads_members {c : UInt8} : ∀ {ds : List (Bytes × Doc)}, ds ≠ [] → (∀ d ∈ ds, StrLit d.1) → (∀ d ∈ ds, Reads d.2) →
    ∀ (u : Bytes) (ts : List Bytes), tokens u = memToks ds ++ [c] :: ts →
    ∃ (es : List (Member × Doc)) (r : Bytes), es.map (fun m => (m.1.key, m.2)) = ds ∧ (∀ e ∈ es, e.1.Wf) ∧
      (∀ e ∈ es, Denotes e.1.val e.2) ∧ u = membersText (es.map Prod.fst) ++ c :: r ∧ tokens r = ts
  | [], h, _, _, _, _, _ => absurd rfl h
  | [(k, d)], _, hk, hd, u, ts, h => by
    simp only [memToks, List.cons_append] at h
    obtain ⟨w1, r1, hw1, rfl, ha⟩ := tokens_cons h
    obtain ⟨w2, r2, hw2, rfl, hb⟩ := tokens_cons ha
    obtain ⟨w, v, r, rfl, hw, hv, hr⟩ := hd (k, d) (by simp) r2 _ hb
    obtain ⟨w', r', hw', rfl, hr'⟩ := tokens_cons hr
    exact ⟨[(⟨w1, k, w2, w, v, w'⟩, d)], r', rfl, by simpa using ⟨hw1, hk (k, d) (by simp), hw2, hw, hw'⟩, by simpa using hv,
      by simp [membersText, Member.text], hr'⟩
  | (k, d) :: d' :: ds, _, hk, hd, u, ts, h => by
    simp only [memToks, List.append_assoc, List.cons_append] at h
    obtain ⟨w1, r1, hw1, rfl, ha⟩ := tokens_cons h
    obtain ⟨w2, r2, hw2, rfl, hb⟩ := tokens_cons ha
    obtain ⟨w, v, r, rfl, hw, hv, hr⟩ := hd (k, d) (by simp) r2 _ hb
    obtain ⟨w', r', hw', rfl, hr'⟩ := tokens_cons hr
    obtain ⟨es, q, h1, h2, h3, h4, h5⟩ := reads_members (by simp) (fun x hx => hk x (by simp [hx])) (fun x hx => hd x (by simp [hx])) r' ts hr'
    subst h4
    cases es with
    | nil => simp at h1
    | cons e es =>
      refine ⟨(⟨w1, k, w2, w, v, w'⟩, d) :: e :: es, q, by simpa using h1, ?_, ?_, by simp [membersText, Member.text], h5⟩
      · intro x hx
        rcases List.mem_cons.1 hx with rfl | hx
        · exact ⟨hw1, hk (k, d) (by simp), hw2, hw, hw'⟩
        · exact h2 x hx
      · intro x hx
        rcases List.mem_cons.1 hx with rfl | hx
        · exact hv
        · exact h3 x hx

theorem reads_arr {ds : List Doc} (hd : ∀ d ∈ ds, Reads d) : Reads (.arr ds) := by
  intro u ts h
  simp only [Doc.toks, List.cons_append, List.append_assoc, List.nil_append] at h
  obtain ⟨w, r, hw, rfl, h1⟩ := tokens_cons h
  by_cases hne : ds = []
  · subst hne
    obtain ⟨w', r', hw', rfl, h2⟩ := tokens_cons h1
    exact ⟨w, _, r', by simp, hw, .arrEmpty hw', h2⟩
  · obtain ⟨es, r', rfl, h2, h3, rfl, h5⟩ := reads_elems hne hd r ts h1
    exact ⟨w, _, r', by simp, hw, .arr (by simpa using hne) h2 h3, h5⟩

theorem reads_obj {ds : List (Bytes × Doc)} (hk : ∀ d ∈ ds, StrLit d.1) (hd : ∀ d ∈ ds, Reads d.2) : Reads (.obj ds) := by
  intro u ts h
  simp only [Doc.toks, List.cons_append, List.append_assoc, List.nil_append] at h
  obtain ⟨w, r, hw, rfl, h1⟩ := tokens_cons h
  by_cases hne : ds = []
  · subst hne
    obtain ⟨w', r', hw', rfl, h2⟩ := tokens_cons h1
    exact ⟨w, _, r', by simp, hw, .objEmpty hw', h2⟩
  · obtain ⟨es, r', rfl, h2, h3, rfl, h5⟩ := reads_members hne hk hd r ts h1
    exact ⟨w, _, r', by simp, hw, .obj (by simpa using hne) h2 h3, h5⟩

theorem reads_of_denotes {v : Bytes} {d : Doc} (h : Denotes v d) : Reads d := by
  induction h with
  | leaf h h1 h2 =>
    intro u ts hu
    obtain ⟨w, r, hw, rfl, hr⟩ := tokens_cons hu
    exact ⟨w, _, r, rfl, hw, .leaf h h1 h2, hr⟩
  | arrEmpty _ => exact reads_arr (by simp)
  | arr _ _ _ ih => 
    refine reads_arr ?_
    intro d hd; obtain ⟨x, hx, rfl⟩ := List.mem_map.1 hd; exact ih x hx
  | objEmpty _ => exact reads_obj (by simp) (by simp)
  | obj _ hw _ ih =>
    refine reads_obj ?_ ?_
    · intro d hd; obtain ⟨x, hx, rfl⟩ := List.mem_map.1 hd; exact (hw x hx).2.1
    · intro d hd; obtain ⟨x, hx, rfl⟩ := List.mem_map.1 hd; exact ih x hx

/-- A text with the tokens of a document that some text denotes is a text for it. -/
theorem denotes_of_tokens {v : Bytes} {d : Doc} (h : Denotes v d) {u : Bytes} (hu : tokens u = d.toks) :
    ∃ v', Padded v' u ∧ Denotes v' d := by
  obtain ⟨w, v', r, rfl, hw, hv, hr⟩ := reads_of_denotes h u [] (by simpa using hu)
  exact ⟨v', ⟨w, r, hw, ws_of_tokens hr, rfl⟩, hv⟩

end Gjson
