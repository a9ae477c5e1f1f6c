import Verif.Spec
import Verif.Basic
/-
Necessary conditions on JSON texts, from the grammar alone, to see that a text is not
JSON without running the validator.
-/
namespace Gjson.Uses
open Spec

theorem mem_elems : ∀ {es : List Elem} {c : UInt8}, c ∈ elemsText es → c = c! ',' ∨ ∃ e ∈ es, c ∈ e.text
  | [], _, h => by simp [elemsText] at h
  | [e], _, h => .inr ⟨e, by simp, h⟩
  | e :: e' :: r, c, h => by
    rw [elemsText, List.mem_append, List.mem_cons] at h
    rcases h with h | rfl | h
    · exact .inr ⟨e, by simp, h⟩
    · exact .inl rfl
    · rcases mem_elems h with h | ⟨x, hx, h⟩
      · exact .inl h
      · exact .inr ⟨x, List.mem_cons_of_mem _ hx, h⟩

theorem mem_members : ∀ {ms : List Member} {c : UInt8}, c ∈ membersText ms → c = c! ',' ∨ ∃ m ∈ ms, c ∈ m.text
  | [], _, h => by simp [membersText] at h
  | [e], _, h => .inr ⟨e, by simp, h⟩
  | e :: e' :: r, c, h => by
    rw [membersText, List.mem_append, List.mem_cons] at h
    rcases h with h | rfl | h
    · exact .inr ⟨e, by simp, h⟩
    · exact .inl rfl
    · rcases mem_members h with h | ⟨x, hx, h⟩
      · exact .inl h
      · exact .inr ⟨x, List.mem_cons_of_mem _ hx, h⟩

/-- The bytes of numbers. -/
theorem mem_num {t : Bytes} (h : NumLit t) : ∀ c ∈ t, IsDigit c ∨ c ∈ b!"+-.eE" := by
  obtain ⟨sg, ip, fp, ep, rfl, hs, hi, hf, he⟩ := h
  intro c hc
  simp only [List.mem_append] at hc
  rcases hc with hc | hc | hc | hc
  · rcases hs with rfl | rfl <;> simp at hc; subst hc; right; decide
  · rcases hi with rfl | ⟨d, ds, rfl, h1, _, h2⟩
    · simp at hc; subst hc; left; decide
    · rcases List.mem_cons.1 hc with rfl | hc
      · exact .inl h1
      · exact .inl (h2 c hc)
  · rcases hf with rfl | ⟨ds, rfl, _, h2⟩
    · simp at hc
    · rcases List.mem_cons.1 hc with rfl | hc
      · right; decide
      · exact .inl (h2 c hc)
  · rcases he with rfl | ⟨e, sg, ds, rfl, h1, h3, _, h2⟩
    · simp at hc
    · rcases List.mem_cons.1 hc with rfl | hc
      · right; rcases h1 with rfl | rfl <;> decide
      · rcases List.mem_append.1 hc with hc | hc
        · right; rcases h3 with rfl | rfl | rfl <;> simp at hc <;> subst hc <;> decide
        · exact .inl (h2 c hc)

theorem mem_str {b : Bytes} (h : StrBody b) : ∀ c ∈ b, 0x20 ≤ c := by
  induction h with
  | nil => simp
  | plain h _ _ _ ih =>
    intro c hc
    rcases List.mem_cons.1 hc with rfl | hc
    · exact h
    · exact ih c hc
  | esc h _ ih =>
    intro c hc
    simp only [List.mem_cons] at hc
    rcases hc with rfl | rfl | hc
    · decide
    · simp only [IsSimpleEsc, List.mem_cons, List.not_mem_nil, or_false] at h
      rcases h with rfl | rfl | rfl | rfl | rfl | rfl | rfl | rfl <;> decide
    · exact ih c hc
  | uni h1 h2 h3 h4 _ ih =>
    have hx : ∀ c, IsHex c → 0x20 ≤ c := by unfold IsHex; grind
    intro c hc
    simp only [List.mem_cons] at hc
    rcases hc with rfl | rfl | rfl | rfl | rfl | rfl | hc
    · exact by decide
    · exact by decide
    · exact hx _ h1
    · exact hx _ h2
    · exact hx _ h3
    · exact hx _ h4
    · exact ih c hc

/-- The bytes of JSON outside of strings. -/
def outside : Bytes := b!"+-.eE[]{},:nulltruefalse"

def Plain (c : UInt8) : Prop := IsWs c ∨ IsDigit c ∨ c ∈ outside

/-- No byte below 0x20 other than whitespace; without strings, only the bytes of the grammar. -/
theorem value_bytes {t : Bytes} (h : IsValue t) :
    (∀ c ∈ t, 0x20 ≤ c ∨ IsWs c) ∧ (c! '"' ∉ t → ∀ c ∈ t, Plain c) := by
  have hp : ∀ c, Plain c → 0x20 ≤ c ∨ IsWs c := by
    intro c hc
    rcases hc with h | h | h
    · exact .inr h
    · left; unfold IsDigit at h; grind
    · left
      revert h
      have : ∀ c ∈ outside, (0x20 : UInt8) ≤ c := by decide
      exact this c
  have hw : ∀ {w : Bytes}, Ws w → ∀ c ∈ w, Plain c := fun h c hc => .inl (h c hc)
  have hq : ∀ {t : Bytes}, StrLit t → (∀ c ∈ t, 0x20 ≤ c) ∧ c! '"' ∈ t := by
    rintro t ⟨b, hb, rfl⟩
    refine ⟨fun c hc => ?_, by simp⟩
    simp only [List.mem_cons, List.mem_append, List.not_mem_nil, or_false] at hc
    rcases hc with rfl | hc | rfl
    · exact by decide
    · exact mem_str hb c hc
    · exact by decide
  have plain : ∀ {t : Bytes}, (∀ c ∈ t, Plain c) →
      (∀ c ∈ t, 0x20 ≤ c ∨ IsWs c) ∧ (c! '"' ∉ t → ∀ c ∈ t, Plain c) :=
    fun h => ⟨fun c hc => hp c (h c hc), fun _ => h⟩
  have lit : ∀ c ∈ outside, Plain c := fun c hc => .inr (.inr hc)
  induction h with
  | null => exact plain fun c hc => lit c (by revert c; decide)
  | «true» => exact plain fun c hc => lit c (by revert c; decide)
  | «false» => exact plain fun c hc => lit c (by revert c; decide)
  | str h => exact ⟨fun c hc => .inl ((hq h).1 c hc), fun hn => absurd (hq h).2 hn⟩
  | num h =>
    refine plain fun c hc => ?_
    rcases mem_num h c hc with h | h
    · exact .inr (.inl h)
    · exact lit c ((by decide : ∀ c ∈ b!"+-.eE", c ∈ outside) c h)
  | arrEmpty h =>
    refine plain fun c hc => ?_
    simp only [List.mem_cons, List.mem_append, List.not_mem_nil, or_false] at hc
    rcases hc with rfl | hc | rfl
    · exact lit _ (by decide)
    · exact hw h c hc
    · exact lit _ (by decide)
  | objEmpty h =>
    refine plain fun c hc => ?_
    simp only [List.mem_cons, List.mem_append, List.not_mem_nil, or_false] at hc
    rcases hc with rfl | hc | rfl
    · exact lit _ (by decide)
    · exact hw h c hc
    · exact lit _ (by decide)
  | @arr es hne hwf hv ih =>
    have hmem : ∀ c ∈ elemsText es, Plain c ∨ ∃ e ∈ es, c ∈ e.val := by
      intro c hc
      rcases mem_elems hc with rfl | ⟨e, he, hc⟩
      · exact .inl (lit _ (by decide))
      · simp only [Elem.text, List.mem_append] at hc
        rcases hc with hc | hc | hc
        · exact .inl (hw (hwf e he).1 c hc)
        · exact .inr ⟨e, he, hc⟩
        · exact .inl (hw (hwf e he).2 c hc)
    have hsub : ∀ {es : List Elem} {e : Elem}, e ∈ es → ∀ c ∈ e.val, c ∈ elemsText es := by
      intro es e he c hc
      induction es with
      | nil => simp at he
      | cons a r ih =>
        cases r with
        | nil => simp at he; subst he; simp [elemsText, Elem.text, hc]
        | cons b r =>
          rw [elemsText]
          rcases List.mem_cons.1 he with rfl | he
          · simp [Elem.text, hc]
          · simp [ih he]
    constructor
    · intro c hc
      simp only [List.mem_cons, List.mem_append, List.not_mem_nil, or_false] at hc
      rcases hc with rfl | hc | rfl
      · left; decide
      · rcases hmem c hc with h | ⟨e, he, h⟩
        · exact hp c h
        · exact (ih e he).1 c h
      · left; decide
    · intro hn c hc
      simp only [List.mem_cons, List.mem_append, List.not_mem_nil, or_false] at hc
      rcases hc with rfl | hc | rfl
      · exact lit _ (by decide)
      · rcases hmem c hc with h | ⟨e, he, h⟩
        · exact h
        · exact (ih e he).2 (fun hx => hn (by simp [hsub he _ hx])) c h
      · exact lit _ (by decide)
  | @obj ms hne hwf hv ih =>
    constructor
    · intro c hc
      simp only [List.mem_cons, List.mem_append, List.not_mem_nil, or_false] at hc
      rcases hc with rfl | hc | rfl
      · left; decide
      · rcases mem_members hc with rfl | ⟨m, hm, hc⟩
        · left; decide
        · obtain ⟨h1, h2, h3, h4, h5⟩ := hwf m hm
          simp only [Member.text, List.mem_append, List.mem_cons] at hc
          rcases hc with hc | hc | hc | rfl | hc | hc | hc
          · exact hp c (hw h1 c hc)
          · exact .inl ((hq h2).1 c hc)
          · exact hp c (hw h3 c hc)
          · exact .inl (by decide)
          · exact hp c (hw h4 c hc)
          · exact (ih m hm).1 c hc
          · exact hp c (hw h5 c hc)
      · left; decide
    · intro hn
      exfalso
      apply hn
      cases ms with
      | nil => exact absurd rfl hne
      | cons m r =>
        have := (hq (hwf m (by simp)).2.1).2
        cases r <;> simp [membersText, Member.text, this]

theorem text_bytes {t : Bytes} (h : JsonText t) : (∀ c ∈ t, 0x20 ≤ c ∨ IsWs c) ∧ (c! '"' ∉ t → ∀ c ∈ t, Plain c) := by
  obtain ⟨w1, v, w2, rfl, h1, h2, hv⟩ := h
  obtain ⟨g1, g2⟩ := value_bytes hv
  constructor
  · intro c hc
    simp only [List.mem_append] at hc
    rcases hc with hc | hc | hc
    · exact .inr (h1 c hc)
    · exact g1 c hc
    · exact .inr (h2 c hc)
  · intro hn c hc
    simp only [List.mem_append] at hc hn
    rcases hc with hc | hc | hc
    · exact .inl (h1 c hc)
    · exact g2 (by grind) c hc
    · exact .inl (h2 c hc)

/-- After a zero at the start of a text there is no digit. -/
theorem text_zero {d : UInt8} {r : Bytes} (h : JsonText (c! '0' :: d :: r)) : ¬ IsDigit d := by
  intro hd
  obtain ⟨w1, v, w2, he, h1, h2, hv⟩ := h
  have hw : w1 = [] := by
    cases w1 with
    | nil => rfl
    | cons a w =>
      have h0 := (List.cons.inj he).1
      exact absurd (h1 a (by simp)) (by rw [← h0]; decide)
  subst hw
  rw [List.nil_append] at he
  have hdw : ¬ IsWs d := by unfold IsDigit at hd; unfold IsWs; grind
  cases hv with
  | null => cases he
  | «true» => cases he
  | «false» => cases he
  | str h => obtain ⟨b, _, rfl⟩ := h; cases he
  | arrEmpty h => cases he
  | objEmpty h => cases he
  | arr => cases he
  | obj => cases he
  | num h =>
    obtain ⟨sg, ip, fp, ep, rfl, hs, hi, hf, hx⟩ := h
    rcases hs with rfl | rfl
    · rcases hi with rfl | ⟨a, ds, rfl, _, h0, _⟩
      · simp only [List.nil_append, List.cons_append, List.append_assoc, List.cons.injEq, true_and] at he
        rcases hf with rfl | ⟨ds, rfl, _⟩
        · rcases hx with rfl | ⟨e, sg, ds, rfl, h3, _⟩
          · rw [List.nil_append, List.nil_append] at he
            exact hdw (h2 d (by rw [← he]; simp))
          · cases he; unfold IsDigit at hd; grind
        · cases he; exact absurd hd (by decide)
      · exact h0 (List.cons.inj he).1.symm
    · cases he

/-- The last byte of a text. -/
theorem text_last {t : Bytes} {x : UInt8} (h : JsonText (t ++ [x])) : IsWs x ∨ IsDigit x ∨ x ∈ b!"le\"]}" := by
  obtain ⟨w1, v, w2, he, h1, h2, hv⟩ := h
  have key : ∀ {u : Bytes} {y : UInt8}, w1 ++ (u ++ [y]) = t ++ [x] → y = x := by
    intro u y h
    rw [← List.append_assoc] at h
    simpa using (List.append_inj' h rfl).2
  rcases List.eq_nil_or_concat w2 with rfl | ⟨w, y, rfl⟩
  · rw [List.append_nil] at he
    cases hv with
    | null => have := key (u := b!"nul") (y := c! 'l') he.symm; subst this; right; right; decide
    | «true» => have := key (u := b!"tru") (y := c! 'e') he.symm; subst this; right; right; decide
    | «false» => have := key (u := b!"fals") (y := c! 'e') he.symm; subst this; right; right; decide
    | str h => obtain ⟨b, _, rfl⟩ := h; have := key (u := c! '"' :: b) (y := c! '"') he.symm; subst this; right; right; decide
    | arrEmpty h => rename_i w; have := key (u := c! '[' :: w) (y := c! ']') he.symm; subst this; right; right; decide
    | objEmpty h => rename_i w; have := key (u := c! '{' :: w) (y := c! '}') he.symm; subst this; right; right; decide
    | @arr es => have := key (u := c! '[' :: elemsText es) (y := c! ']') he.symm; subst this; right; right; decide
    | @obj ms => have := key (u := c! '{' :: membersText ms) (y := c! '}') he.symm; subst this; right; right; decide
    | num h =>
      right; left
      rcases List.eq_nil_or_concat v with rfl | ⟨u, y, rfl⟩
      · obtain ⟨sg, ip, fp, ep, h0, hs, hi, _⟩ := h
        have : ip = [] := by
          have := congrArg List.length h0
          simp at this
          exact List.length_eq_zero_iff.1 (by omega)
        rcases hi with rfl | ⟨_, _, rfl, _⟩ <;> cases this
      · have hy := key (u := u) (y := y) (by rw [he]; simp)
        subst hy
        obtain ⟨sg, ip, fp, ep, h0, hs, hi, hf, hx⟩ := h
        have fin : ∀ {a ds : Bytes}, u ++ [y] = a ++ ds → ds ≠ [] → (∀ c ∈ ds, IsDigit c) → IsDigit y := by
          intro a ds h hne hd
          rcases List.eq_nil_or_concat ds with rfl | ⟨l, z, rfl⟩
          · exact absurd rfl hne
          · rw [List.concat_eq_append, ← List.append_assoc] at h
            have := (List.append_inj' h rfl).2
            simp at this; subst this
            exact hd _ (by simp)
        rw [List.concat_eq_append] at h0
        rcases hx with rfl | ⟨e, sg', ds, rfl, _, _, hne, hd⟩
        · rcases hf with rfl | ⟨ds, rfl, hne, hd⟩
          · rcases hi with rfl | ⟨d, ds, rfl, h3, _, h4⟩
            · exact fin (a := sg) (ds := [c! '0']) (by simpa using h0) (by simp) (by simp; decide)
            · exact fin (a := sg) (ds := d :: ds) (by simpa using h0) (by simp) (by simpa using ⟨h3, h4⟩)
          · exact fin (a := sg ++ (ip ++ [c! '.'])) (ds := ds) (by simpa using h0) hne hd
        · exact fin (a := sg ++ (ip ++ (fp ++ e :: sg'))) (ds := ds) (by simpa using h0) hne hd
  · left
    have := key (u := v ++ w) (y := y) (by rw [he]; simp)
    subst this
    exact h2 _ (by simp)

end Gjson.Uses
