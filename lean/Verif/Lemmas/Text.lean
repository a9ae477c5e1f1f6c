import Verif.SpecText
import Verif.Lemmas.Whole
/-
Values, elements and members in any text, as in `SpecText.lean`.
-/
namespace Gjson
open Spec

/-! ### Values -/

theorem numCh_iff (c : UInt8) : NumCh c ↔ IsDigit c ∨ c ∈ b!".eE+-" := by
  unfold NumCh IsDigit
  simp only [List.mem_cons, List.not_mem_nil, or_false]
  grind

theorem num_cut {p r : Bytes} (hp : ∀ c ∈ p, IsDigit c ∨ c ∈ b!".eE+-") (hr : ∀ c ∈ r.head?, ¬ IsDigit c ∧ c ∉ b!".eE+-") :
    numTake (p ++ r) = p ∧ numDrop (p ++ r) = r := by
  have hp' : ∀ c ∈ p, decide (NumCh c) = true := fun c hc => by simpa using (numCh_iff c).2 (hp c hc)
  unfold numTake numDrop
  rw [List.takeWhile_append_of_pos hp', List.dropWhile_append_of_pos hp']
  cases r with
  | nil => simp
  | cons c r =>
    have : ¬ NumCh c := by
      rw [numCh_iff]
      have := hr c rfl
      grind
    rw [List.takeWhile_cons_of_neg (by simpa using this), List.dropWhile_cons_of_neg (by simpa using this)]
    simp

theorem numTake_mem (s : Bytes) : ∀ c ∈ numTake s, IsDigit c ∨ c ∈ b!".eE+-" := by
  intro c hc
  have := List.all_eq_true.1 (List.all_takeWhile (p := fun c => decide (NumCh c)) (l := s)) c hc
  rw [← numCh_iff]
  simpa using this

theorem numDrop_head (s : Bytes) : ∀ c ∈ (numDrop s).head?, ¬ IsDigit c ∧ c ∉ b!".eE+-" := by
  intro c hc
  have : ¬ NumCh c := by
    unfold numDrop at hc
    have := List.head?_dropWhile_not (p := fun c => decide (NumCh c)) s
    cases h : (s.dropWhile fun c => decide (NumCh c)).head? with
    | none => rw [h] at hc; cases hc
    | some d =>
      rw [h] at hc this
      cases hc
      simpa using this
  rw [numCh_iff] at this
  grind

theorem valueAt_leaf {s v r : Bytes} (h : ValueAt s v r) : ∃ info, leafTok s = (some (v, info), r) ∧ v ≠ [] := by
  cases h with
  | @string b r hb =>
    rw [leafTok, if_pos rfl, qStr_esc hb]
    exact ⟨_, rfl, by simp⟩
  | @group g r hg hh =>
    obtain ⟨o, b, c, ho, hc, hb, rfl⟩ := hg
    have hh : o = c! '{' ∨ o = c! '[' := by have := hh o rfl; simpa using this
    rw [List.cons_append, leafTok, if_neg (by grind), if_pos hh, List.append_assoc, List.singleton_append, sq_group hb (closeTok_of hc)]
    exact ⟨_, rfl, by simp⟩
  | @number d p r hd hp hr =>
    have hn : NumStart d := by unfold NumStart; unfold IsDigit at hd; exact hd
    obtain ⟨e1, e2⟩ := num_cut hp hr
    rw [leafTok, if_neg (by unfold NumStart at hn; grind), if_neg (by unfold NumStart at hn; grind), if_pos hn, e1, e2]
    exact ⟨_, rfl, by simp⟩
  | @four d w r hd hw =>
    simp only [List.mem_cons, List.not_mem_nil, or_false] at hd
    have hl : ¬ (w ++ r).length < 3 := by simp; omega
    have ht : (w ++ r).take 3 = w ∧ (w ++ r).drop 3 = r := by rw [← hw]; simp
    rw [leafTok, if_neg (by grind), if_neg (by grind), if_neg (by unfold NumStart; grind)]
    rcases hd with rfl | rfl
    · rw [if_pos rfl, if_neg hl, ht.1, ht.2]
      exact ⟨_, rfl, by simp⟩
    · rw [if_neg (by decide), if_neg (by decide), if_pos rfl, if_neg hl, ht.1, ht.2]
      exact ⟨_, rfl, by simp⟩
  | @five w r hw =>
    have hl : ¬ (w ++ r).length < 4 := by simp; omega
    have ht : (w ++ r).take 4 = w ∧ (w ++ r).drop 4 = r := by rw [← hw]; simp
    rw [leafTok, if_neg (by decide), if_neg (by decide), if_neg (by decide), if_neg (by decide), if_pos rfl, if_neg hl, ht.1, ht.2]
    exact ⟨_, rfl, by simp⟩

theorem valueAt_one {s v v' r r' : Bytes} (h : ValueAt s v r) (h' : ValueAt s v' r') : v = v' ∧ r = r' := by
  obtain ⟨i, h1, _⟩ := valueAt_leaf h
  obtain ⟨j, h2, _⟩ := valueAt_leaf h'
  rw [h1] at h2
  simp only [Prod.mk.injEq, Option.some.injEq] at h2
  exact ⟨h2.1.1, h2.2⟩

/-- There is a value at the front of a text, or `proc_value` finds none and is at the end. -/
theorem leaf_cases (s : Bytes) : (∃ v r, ValueAt s v r) ∨ (NoValue s ∧ (∀ i, (tokVal i (leafTok s).1).exists = false) ∧ (leafTok s).2 = []) := by
  have none : ∀ {x : Option (Bytes × UInt32)}, leafTok s = (x, []) → (∀ v info, x = some (v, info) → v = []) →
      (NoValue s ∧ (∀ i, (tokVal i (leafTok s).1).exists = false) ∧ (leafTok s).2 = []) := by
    intro x h hx
    refine ⟨fun v r hv => ?_, fun i => ?_, by rw [h]⟩
    · obtain ⟨info, h1, h2⟩ := valueAt_leaf hv
      rw [h] at h1
      simp only [Prod.mk.injEq] at h1
      exact h2 (hx v info h1.1)
    · rw [h]
      rcases x with _ | ⟨v, info⟩
      · rfl
      · rw [hx v info rfl]; simp [tokVal]
  cases s with
  | nil => exact .inr (none (x := Option.none) rfl (by simp))
  | cons c r =>
    by_cases c1 : c = c! '"'
    · subst c1
      rcases qStr_cases r with ⟨b, q, f, rfl, hb, _⟩ | ⟨h, _⟩
      · exact .inl ⟨_, _, .string hb⟩
      · exact .inr (none (x := some ([], INFO_STRING)) (by rw [leafTok, if_pos rfl, h]) (by simp))
    by_cases c2 : c = c! '{' ∨ c = c! '['
    · rcases sq_cases r with ⟨b, d, q, rfl, hb, hd, _⟩ | ⟨h, _⟩
      · refine .inl ⟨c :: (b ++ [d]), q, ?_⟩
        have : c :: (b ++ d :: q) = (c :: (b ++ [d])) ++ q := by simp
        rw [this]
        exact .group ⟨c, b, d, by simp; grind, hd, hb, rfl⟩ (by simp; grind)
      · exact .inr (none (x := some ([], contBit c)) (by rw [leafTok, if_neg c1, if_pos c2, h]) (by simp))
    by_cases c3 : NumStart c
    · refine .inl ⟨c :: numTake r, numDrop r, ?_⟩
      have := ValueAt.number (d := c) (by unfold NumStart at c3; unfold IsDigit; exact c3) (numTake_mem r) (numDrop_head r)
      rwa [numTake_append_numDrop] at this
    have word : ∀ k, k ≤ r.length → r = r.take k ++ r.drop k ∧ (r.take k).length = k := fun k hk => ⟨by simp, by simp; omega⟩
    by_cases c4 : c = c! 't'
    · by_cases hl : r.length < 3
      · exact .inr (none (x := Option.none) (by rw [leafTok, if_neg c1, if_neg c2, if_neg c3, if_pos c4, if_pos hl]) (by simp))
      · obtain ⟨e1, e2⟩ := word 3 (by omega)
        have := ValueAt.four (d := c) (r := r.drop 3) (by simp [c4]) e2
        rw [← e1] at this
        exact .inl ⟨_, _, this⟩
    by_cases c5 : c = c! 'f'
    · by_cases hl : r.length < 4
      · exact .inr (none (x := Option.none) (by rw [leafTok, if_neg c1, if_neg c2, if_neg c3, if_neg c4, if_pos c5, if_pos hl]) (by simp))
      · obtain ⟨e1, e2⟩ := word 4 (by omega)
        have := ValueAt.five (r := r.drop 4) e2
        rw [← e1] at this
        subst c5
        exact .inl ⟨_, _, this⟩
    by_cases c6 : c = c! 'n'
    · by_cases hl : r.length < 3
      · exact .inr (none (x := Option.none) (by rw [leafTok, if_neg c1, if_neg c2, if_neg c3, if_neg c4, if_neg c5, if_pos c6, if_pos hl]) (by simp))
      · obtain ⟨e1, e2⟩ := word 3 (by omega)
        have := ValueAt.four (d := c) (r := r.drop 3) (by simp [c6]) e2
        rw [← e1] at this
        exact .inl ⟨_, _, this⟩
    exact .inr (none (x := Option.none) (by rw [leafTok, if_neg c1, if_neg c2, if_neg c3, if_neg c4, if_neg c5, if_neg c6]) (by simp))

theorem noValue_leaf {s : Bytes} (h : NoValue s) : (∀ i, (tokVal i (leafTok s).1).exists = false) ∧ (leafTok s).2 = [] := by
  rcases leaf_cases s with ⟨v, r, hv⟩ | ⟨_, h⟩
  · exact absurd hv (h v r)
  · exact h

theorem valueAt_ne {s v r : Bytes} (h : ValueAt s v r) : v ≠ [] := (valueAt_leaf h).choose_spec.2

theorem valueAt_append {s v r : Bytes} (h : ValueAt s v r) : s = v ++ r := by cases h <;> simp

theorem valueAt_lt {s v r : Bytes} (h : ValueAt s v r) : r.length < s.length := by
  have h1 := congrArg List.length (valueAt_append h)
  have h2 := List.length_pos_iff.2 (valueAt_ne h)
  rw [List.length_append] at h1
  omega

/-- First bytes of values. -/
theorem valueAt_head {c : UInt8} {q v r : Bytes} (h : ValueAt (c :: q) v r) : ¬ (c ≤ c! ' ' ∨ c = c! ',' ∨ c = c! ':') ∧ ¬ (c = c! '}' ∨ c = c! ']') := by
  have hc : c = c! '"' ∨ c = c! '{' ∨ c = c! '[' ∨ IsDigit c ∨ c = c! '-' ∨ c = c! 't' ∨ c = c! 'n' ∨ c = c! 'f' := by
    generalize e : c :: q = s at h
    cases h with
    | string => exact .inl (List.cons.inj e).1
    | group hg hh =>
      obtain ⟨o, b, d, _, _, _, rfl⟩ := hg
      have := hh o rfl
      simp only [List.mem_cons, List.not_mem_nil, or_false] at this
      have e := (List.cons.inj e).1
      grind
    | number hd =>
      have e := (List.cons.inj e).1
      rcases hd with h | h <;> grind
    | four hd =>
      have e := (List.cons.inj e).1
      simp only [List.mem_cons, List.not_mem_nil, or_false] at hd
      grind
    | five =>
      have e := (List.cons.inj e).1
      grind
  unfold IsDigit at hc
  rcases hc with h | h | h | h | h | h | h | h <;> grind

theorem valueAt_tok {s v r : Bytes} (h : ValueAt s v r) (i : Nat) : (tokVal i (leafTok s).1).json = v ∧ (tokVal i (leafTok s).1).exists = true ∧ (leafTok s).2 = r := by
  obtain ⟨info, h1, h2⟩ := valueAt_leaf h
  rw [h1]
  refine ⟨by simp [tokVal], ?_, rfl⟩
  rw [exists_json]
  simpa [tokVal] using h2

/-- A value that is met says what its text says. -/
theorem prov_same {v : Value} (h : Prov v) (he : v.exists = true) : SameAsText v v.json := by
  have hs := h.ownText (exists_json.1 he)
  refine ⟨rfl, ?_, _, parse_eq _, hs⟩
  have hj := hs.json
  rw [hs.kind, pParse_kindOf _ _ (by rw [← hj]; exact exists_json.1 he), ← hj]

/-! ### Elements -/

theorem listing_toks {s : Bytes} {vs : List Bytes} (h : Listing s vs) : ∀ i, Aligned SameAsText (toks i s) vs := by
  induction h with
  | nil => intro i; rw [toks_nil]; exact .nil
  | skip hc _ ih => intro i; rw [toks_skip (by simp at hc; exact hc)]; exact ih _
  | close hc => intro i; rw [toks_close (by simp at hc; grind)]; exact .nil
  | @value s v r vs hv _ ih =>
    intro i
    cases s with
    | nil => exact absurd (valueAt_lt hv) (by simp)
    | cons c q =>
      obtain ⟨h1, h2⟩ := valueAt_head hv
      obtain ⟨h3, h4, h5⟩ := valueAt_tok hv i
      rw [toks_tok h1 h2, if_pos h4, h5]
      refine .cons ?_ (ih _)
      have := prov_same (.tok i (c :: q)) h4
      rwa [h3] at this
  | @broken c r h1 h2 h3 =>
    intro i
    simp only [List.mem_cons, List.not_mem_nil, or_false, not_or] at h2
    rw [toks_tok (by rintro (h | h) <;> grind) (by grind), if_neg (by rw [(noValue_leaf h3).1]; decide)]
    exact .nil

theorem listing_total : ∀ (n : Nat) (s : Bytes), s.length < n → ∃ vs, Listing s vs := by
  intro n
  induction n with
  | zero => intro s h; omega
  | succ n ih =>
    intro s hl
    cases s with
    | nil => exact ⟨_, .nil⟩
    | cons c r =>
      by_cases h1 : c ≤ 0x20 ∨ c ∈ b!",:"
      · obtain ⟨vs, h⟩ := ih r (by simp at hl; omega)
        exact ⟨vs, .skip h1 h⟩
      by_cases h2 : c ∈ b!"]}"
      · exact ⟨_, .close h2⟩
      rcases leaf_cases (c :: r) with ⟨v, q, hv⟩ | ⟨hn, _⟩
      · obtain ⟨vs, h⟩ := ih q (by have := valueAt_lt hv; omega)
        exact ⟨_, .value hv h⟩
      · refine ⟨_, .broken ?_ ?_ hn⟩
        · rw [not_or] at h1; grind
        · simp only [List.mem_cons, List.not_mem_nil, or_false, not_or] at h1 h2 ⊢; grind

theorem listing_one {s : Bytes} {vs vs' : List Bytes} (h : Listing s vs) (h' : Listing s vs') : vs = vs' := by
  have key : ∀ {vs}, Listing s vs → vs = (toks 0 s).map Value.json := by
    intro vs h
    have := listing_toks h 0
    generalize toks 0 s = l at this
    clear h h'
    induction this with
    | nil => rfl
    | cons h _ ih => rw [List.map_cons, ← ih, h.1]
  rw [key h, key h']

/-- A value of some text. -/
def Readable (e : Bytes) : Prop := ∃ s r, ValueAt s e r

theorem listing_readable {s : Bytes} {vs : List Bytes} (h : Listing s vs) : ∀ v ∈ vs, Readable v := by
  induction h with
  | nil => simp
  | skip _ _ ih => exact ih
  | close => simp
  | value hv _ ih =>
    intro x hx
    rcases List.mem_cons.1 hx with rfl | hx
    · exact ⟨_, _, hv⟩
    · exact ih x hx
  | broken => simp

theorem readable_ne {e : Bytes} (h : Readable e) : e ≠ [] := by
  obtain ⟨s, r, h⟩ := h
  exact valueAt_ne h

theorem readable_same {e : Bytes} (h : Readable e) : ∃ v, Prov v ∧ SameAsText v e ∧ v.exists = true := by
  obtain ⟨s, r, h⟩ := h
  obtain ⟨h1, h2, _⟩ := valueAt_tok h 0
  have := prov_same (.tok 0 s) h2
  rw [h1] at this
  exact ⟨_, .tok 0 s, this, h2⟩

/-! ### Members -/

theorem keyText_told {b s : Bytes} (hs : Told b s) : keyText (b ++ [c! '"']) (decide (c! '\\' ∈ b)) = s := by
  rw [told_iff.1 hs]
  unfold keyText
  by_cases h : c! '\\' ∈ b
  · simp only [h, decide_true, if_true]
    exact unescQ_quoted b
  · simp [h]

theorem keyIs_told {b s : Bytes} (hb : QuotedBody b) (hs : Told b s) : KeyIs (c! '"' :: (b ++ [c! '"'])) s := by
  have he : ∃ v, parse (c! '"' :: (b ++ [c! '"'])) = .ok v ∧ v.exists = true ∧ v.json = c! '"' :: (b ++ [c! '"']) := by
    refine ⟨_, parse_eq _, ?_⟩
    rw [pParse, if_neg (by decide), if_neg (by decide), if_neg (by decide), if_pos (by simp)]
    have := ValueAt.string (r := []) hb
    obtain ⟨h1, h2, _⟩ := valueAt_tok this 0
    exact ⟨h2, h1⟩
  obtain ⟨v, h1, h2, h3⟩ := he
  have hk : v.kind = .string := by rw [C62_kind (.parse h1) h2, h3]; rfl
  obtain ⟨b', s', _, h5, h6, h7, _⟩ := Handed.string (.parse h1) h2 hk
  rw [h3] at h6
  have := quoted_inj h6
  subst this
  rw [told_one hs h5]
  exact ⟨v, h1, h7⟩

theorem told_total (b : Bytes) : ∃ s, Told b s := ⟨_, told_iff.2 rfl⟩

/-- A key is selected by its content. -/
theorem hit_told {b s : Bytes} (hb : QuotedBody b) (hs : Told b s) (k : Bytes) (p : Bool) :
    libAsks.hit k p (c! '"' :: (b ++ [c! '"'])) ↔ if p then MatchesE CodeEsc k s else s = k := by
  have hk := keyIs_told hb hs
  constructor
  · rintro ⟨s', h1, h2⟩
    rwa [keyIs_fun hk h1]
  · intro h; exact ⟨s, hk, h⟩

theorem skipColon_cut {w t : Bytes} (hw : ∀ c ∈ w, c ≤ 0x20 ∨ c = c! ':') (ht : ∀ c ∈ t.head?, 0x20 < c ∧ c ≠ c! ':') : pSkipColon (w ++ t) = t := by
  induction w with
  | nil =>
    cases t with
    | nil => rfl
    | cons c r =>
      have := ht c rfl
      rw [List.nil_append, pSkipColon, if_neg]
      rintro (h | h) <;> grind
  | cons c w ih =>
    rw [List.cons_append, pSkipColon, if_pos (hw c (by simp))]
    exact ih fun d hd => hw d (List.mem_cons_of_mem _ hd)

theorem skipColon_split : ∀ s : Bytes, ∃ w t, s = w ++ t ∧ (∀ c ∈ w, c ≤ 0x20 ∨ c = c! ':') ∧ ∀ c ∈ t.head?, 0x20 < c ∧ c ≠ c! ':'
  | [] => ⟨[], [], rfl, by simp, by simp⟩
  | c :: r => by
    by_cases h : c ≤ 0x20 ∨ c = c! ':'
    · obtain ⟨w, t, rfl, h1, h2⟩ := skipColon_split r
      refine ⟨c :: w, t, rfl, ?_, h2⟩
      intro d hd
      rcases List.mem_cons.1 hd with rfl | hd
      · exact h
      · exact h1 d hd
    · refine ⟨[], c :: r, rfl, by simp, ?_⟩
      intro d hd
      cases hd
      rw [not_or] at h
      exact ⟨by grind, h.2⟩

/-- A text that begins with a quote: the key is not closed, or there is one. -/
theorem key_cases (r : Bytes) : NeverClosed (c! '"' :: r) ∨ ∃ kl t, KeyAt (c! '"' :: r) kl t := by
  rcases qStr_cases r with ⟨b, q, _, rfl, hb, _⟩ | ⟨_, h⟩
  · obtain ⟨w, t, rfl, h1, h2⟩ := skipColon_split q
    exact .inr ⟨_, _, .key hb h1 h2⟩
  · exact .inl h

theorem keyAt_lt {s kl t : Bytes} (h : KeyAt s kl t) : t.length < s.length := by
  cases h
  simp
  omega

end Gjson
