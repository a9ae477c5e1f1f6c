import Verif.Lemmas.Hunt
/-
`parse` and the search of a path in any text, and texts that are fair.
-/
namespace Gjson
open Spec

/-! ### Reading a text -/

theorem pParse_blank {w : Bytes} (h : Blank w) (s : Bytes) : ∀ i, pParse i (w ++ s) = pParse (i + w.length) s := by
  induction w with
  | nil => intro i; rfl
  | cons c w ih =>
    intro i
    rw [List.cons_append, pParse, if_pos (h c (by simp)), ih (fun x hx => h x (by simp [hx]))]
    congr 1
    simp; omega

theorem pParse_bracket {c : UInt8} {r : Bytes} (h : c ∈ b!"{[") (i : Nat) : (pParse i (c :: r)).json = c :: r := by
  simp only [List.mem_cons, List.not_mem_nil, or_false] at h
  rcases h with rfl | rfl <;> simp [pParse]

theorem pParse_value {s v r : Bytes} (h : ValueAt s v r) (hn : ∀ c ∈ s.head?, c ∉ b!"{[") (i : Nat) : pParse i s = tokVal i (leafTok s).1 := by
  obtain ⟨c, q, rfl⟩ := valueAt_cons h
  have h1 := hn c rfl
  simp only [List.mem_cons, List.not_mem_nil, or_false, not_or] at h1
  have h2 := (valueAt_head h).1
  rw [pParse, if_neg (fun h => h2 (.inl h)), if_neg h1.1, if_neg h1.2, if_pos]
  generalize e : c :: q = s at h
  cases h with
  | string => cases e; simp
  | group hg hh =>
    obtain ⟨o, _, _, ho, _, _, rfl⟩ := hg
    cases e
    have := hh c rfl
    simp only [List.mem_cons, List.not_mem_nil, or_false] at this
    grind
  | number hd => cases e; unfold IsDigit at hd; grind
  | four hd =>
    cases e
    simp only [List.mem_cons, List.not_mem_nil, or_false] at hd
    grind
  | five => cases e; simp

theorem pParse_none {s : Bytes} (hn : ∀ c ∈ s.head?, c ∉ b!"{[" ∧ 0x20 < c) (h : NoValue s) (i : Nat) : (pParse i s).json = [] ∧
    ((∀ c ∈ s.head?, c ≠ c! '"') → pParse i s = Value.default) := by
  cases s with
  | nil => exact ⟨rfl, fun _ => rfl⟩
  | cons c r =>
    obtain ⟨h1, h2⟩ := hn c rfl
    simp only [List.mem_cons, List.not_mem_nil, or_false, not_or] at h1
    have hl := (noValue_leaf h).1 i
    rw [Bool.eq_false_iff, ne_eq, exists_json, not_not] at hl
    rw [pParse, if_neg (by simpa using h2), if_neg h1.1, if_neg h1.2]
    split
    · refine ⟨hl, fun hq => ?_⟩
      have hq := hq c rfl
      rename_i hc
      have h3 : ¬ NumStart c := fun hs => by
        have := ValueAt.number (d := c) (by unfold NumStart at hs; unfold IsDigit; exact hs) (numTake_mem r) (numDrop_head r)
        rw [numTake_append_numDrop] at this
        exact h _ _ this
      have word : ∀ k, ¬ r.length < k → r = r.take k ++ r.drop k ∧ (r.take k).length = k := fun k hk => ⟨by simp, by simp; omega⟩
      have four : c ∈ b!"tn" → r.length < 3 := by
        intro hc
        apply Classical.byContradiction
        intro hl
        obtain ⟨e1, e2⟩ := word 3 hl
        have := ValueAt.four (r := r.drop 3) hc e2
        rw [← e1] at this
        exact h _ _ this
      have five : c = c! 'f' → r.length < 4 := by
        rintro rfl
        apply Classical.byContradiction
        intro hl
        obtain ⟨e1, e2⟩ := word 4 hl
        have := ValueAt.five (r := r.drop 4) e2
        rw [← e1] at this
        exact h _ _ this
      rw [leafTok, if_neg hq, if_neg (by grind), if_neg h3]
      by_cases c4 : c = c! 't'
      · rw [if_pos c4, if_pos (four (by simp [c4]))]; rfl
      by_cases c5 : c = c! 'f'
      · rw [if_neg c4, if_pos c5, if_pos (five c5)]; rfl
      by_cases c6 : c = c! 'n'
      · rw [if_neg c4, if_neg c5, if_pos c6, if_pos (four (by simp [c6]))]; rfl
      · rw [if_neg c4, if_neg c5, if_neg c6]; rfl
    · exact ⟨rfl, fun _ => rfl⟩

theorem parsed_json {s x : Bytes} (h : Parsed s x) (i : Nat) : (pParse i s).json = x := by
  cases h with
  | @cont w _ hw hh =>
    obtain ⟨c, h1, h2⟩ := hh
    rw [pParse_blank hw]
    cases x with
    | nil => cases h1
    | cons d r => cases h1; exact pParse_bracket h2 _
  | @value w s _ _ hw hn hv =>
    rw [pParse_blank hw, pParse_value hv hn]
    exact (valueAt_tok hv _).1
  | @none w s hw hn hv =>
    rw [pParse_blank hw]
    exact (pParse_none hn hv _).1

theorem parsed_total (s : Bytes) : ∃ x, Parsed s x := by
  obtain ⟨w, t, rfl, hw, ht⟩ := blank_split s
  by_cases hc : ∃ c ∈ t.head?, c ∈ b!"{["
  · exact ⟨t, .cont hw hc⟩
  · have hc' : ∀ c ∈ t.head?, c ∉ b!"{[" := fun c h1 h2 => hc ⟨c, h1, h2⟩
    rcases leaf_cases t with ⟨v, r, hv⟩ | ⟨hv, _⟩
    · exact ⟨v, .value hw hc' hv⟩
    · exact ⟨[], .none hw (fun c h => ⟨hc' c h, ht c h⟩) hv⟩

theorem parsed_fits {s x : Bytes} (hf : Fair s) (h : Parsed s x) : Fits (jsonIntoOwned (pParse 0 s)) x := by
  have hs := sameValue_owned (pParse_oneText s 0)
  have hj := parsed_json h 0
  suffices Fits (pParse 0 s) x from ⟨hs.json.trans this.1, fun hx => hs.trans (this.2 hx)⟩
  refine ⟨hj, fun hx => ?_⟩
  cases h with
  | cont _ hh => obtain ⟨c, h1, _⟩ := hh; subst hx; cases h1
  | value _ _ hv => exact absurd hx (valueAt_ne hv)
  | @none w s hw hn hv =>
    rw [pParse_blank hw, (pParse_none hn hv _).2]
    · exact SameValue.refl _
    · intro c hc e
      cases s with
      | nil => cases hc
      | cons d r =>
        cases hc
        subst e
        obtain ⟨v, q, h⟩ := hf w r hw rfl
        exact hv _ _ h

/-! ### Texts that are fair -/

theorem fair_head {s : Bytes} (h : ∀ c ∈ s.head?, 0x20 < c ∧ c ≠ c! '"') : Fair s := by
  intro w r hw e
  cases w with
  | nil => subst e; exact absurd rfl (h _ rfl).2
  | cons c w =>
    subst e
    have h1 := (h c rfl).1
    have h2 := hw c (by simp)
    grind

theorem fair_nil : Fair [] := fair_head (by simp)

theorem fair_readable {e : Bytes} (h : Readable e) : Fair e := by
  obtain ⟨s, r, h⟩ := h
  cases h with
  | @string b r hb =>
    intro w q hw e
    cases w with
    | nil =>
      rw [List.nil_append] at e
      rw [← e]
      exact ⟨_, _, .string (r := []) hb⟩
    | cons c w =>
      have := hw c (by simp)
      rw [List.cons_append, List.cons.injEq] at e
      rw [← e.1] at this
      exact absurd this (by decide)
  | group hg hh =>
    refine fair_head fun c hc => ?_
    have := hh c hc
    simp only [List.mem_cons, List.not_mem_nil, or_false] at this
    rcases this with rfl | rfl <;> decide
  | number hd => exact fair_head fun c hc => by cases hc; unfold IsDigit at hd; grind
  | four hd =>
    simp only [List.mem_cons, List.not_mem_nil, or_false] at hd
    exact fair_head fun c hc => by cases hc; rcases hd with rfl | rfl <;> decide
  | five => exact fair_head fun c hc => by cases hc; decide

theorem fair_cont {c : UInt8} {r : Bytes} (h : c ∈ b!"{[") : Fair (c :: r) := by
  simp only [List.mem_cons, List.not_mem_nil, or_false] at h
  exact fair_head fun d hd => by cases hd; rcases h with rfl | rfl <;> decide

theorem fair_parsed {s x : Bytes} (h : Parsed s x) : Fair x := by
  cases h with
  | cont _ hh =>
    obtain ⟨c, h1, h2⟩ := hh
    cases x with
    | nil => cases h1
    | cons d r => cases h1; exact fair_cont h2
  | value _ _ hv => exact fair_readable ⟨_, _, hv⟩
  | none => exact fair_nil

theorem readable_value {v : Bytes} (h : IsValue v) : Readable v := by
  have h2 : leafTok v = (some (v, infoOf v), []) := by
    have := leafTok_value h Follow.nil
    rwa [List.append_nil] at this
  rcases leaf_cases v with ⟨x, r, hx⟩ | ⟨_, h1, _⟩
  · have h1 := (valueAt_tok hx 0).1
    rw [h2] at h1
    simp [tokVal] at h1
    subst h1
    exact ⟨_, _, hx⟩
  · have := h1 0
    rw [h2, Bool.eq_false_iff, ne_eq, exists_json] at this
    exact absurd (by simpa [tokVal] using isValue_ne_nil h) this

/-! ### Searches that ask differently -/

/-- The second says what the first says, of values that are read and keys that are met. -/
structure WeakerIn (A B : Asks) : Prop where
  ask : ∀ e g o, A.ask e g o → B.ask e g o
  holds : ∀ lh op rh e b, Readable e → A.holds lh op rh e b → B.holds lh op rh e b
  hit : ∀ k p b, QuotedBody b → (A.hit k p (c! '"' :: (b ++ [c! '"'])) ↔ B.hit k p (c! '"' :: (b ++ [c! '"'])))

theorem keyAt_hit {A B : Asks} (H : WeakerIn A B) {s kl t : Bytes} (h : KeyAt s kl t) (k : Bytes) (p : Bool) : A.hit k p kl ↔ B.hit k p kl := by
  cases h with
  | key hb => exact H.hit k p _ hb

theorem picksIn_mono {A B : Asks} (H : WeakerIn A B) {vs : List Bytes} (hv : ∀ v ∈ vs, Readable v) {P : Parts} {o : Option Landing}
    (h : Picks A vs P o) : Picks B vs P o := by
  cases h with
  | index h1 h2 h3 => exact .index h1 h2 h3
  | beyond h1 h2 => exact .beyond h1 h2
  | count h => exact .count h
  | map hg ha => exact .map hg (aligned_imp ha fun e o => H.ask e _ o)
  | first hq ht => exact .first hq fun v hm => H.holds _ _ _ _ _ (hv v hm) (ht v hm)
  | all hq ht hs => exact .all hq (fun v hm => H.holds _ _ _ _ _ (hv v hm) (ht v hm)) hs
  | allMap hq ht hg ha => exact .allMap hq (fun v hm => H.holds _ _ _ _ _ (hv v hm) (ht v hm)) hg (aligned_imp ha fun e o => H.ask e _ o)

mutual
theorem hunt_mono {A B : Asks} (H : WeakerIn A B) {P : Parts} {s : Bytes} {o : Option Landing} (h : Hunt A P s o) : Hunt B P s o :=
  match h with
  | .nil => .nil
  | .close => .close
  | .skip hc h => .skip hc (hunt_mono H h)
  | .openKey h => .openKey h
  | .alone h => .alone h
  | .pass hk hn hv h => .pass hk (fun hh => hn ((keyAt_hit H hk _ _).2 hh)) hv (hunt_mono H h)
  | .take hk hh hg hv => .take hk ((keyAt_hit H hk _ _).1 hh) hg hv
  | .broken hk hn hv => .broken hk (hn.imp (fun hn hh => hn ((keyAt_hit H hk _ _).2 hh)) id) hv
  | .into hk hh hg hp => .into hk ((keyAt_hit H hk _ _).1 hh) hg (probe_mono H hp)
  | .again hk hh hg hp h => .again hk ((keyAt_hit H hk _ _).1 hh) hg (probe_mono H hp) (hunt_mono H h)
theorem probe_mono {A B : Asks} (H : WeakerIn A B) {P : Parts} {s : Bytes} {o : Option Landing} (h : Probe A P s o) : Probe B P s o :=
  match h with
  | .object h => .object (hunt_mono H h)
  | .array hl hp => .array hl (picksIn_mono H (listing_readable hl) hp)
end

theorem lookIn_mono {A B : Asks} (H : WeakerIn A B) {s : Bytes} {P : Parts} {o : Option Landing} (h : Look A s P o) : Look B s P o := by
  cases h with
  | inside hw hp => exact .inside hw (probe_mono H hp)
  | nothing hw hs => exact .nothing hw hs

/-! ### A search -/

section
variable {G : Bytes → Bytes → Bytes → Prop} (hG : ∀ doc path r, G doc path r → Gives (get doc path) r)
include hG

theorem asksIn_holds (lh op rh e : Bytes) (b : Bool) (he : Readable e) (h : (asksIn G).holds lh op rh e b) : libAsks.holds lh op rh e b := by
  obtain ⟨x, h1, h2⟩ := h
  by_cases hl : lh = []
  · rw [if_pos hl] at h1
    subst h1
    obtain ⟨v, _, ⟨h3, h4, w, h5, h6⟩, hx⟩ := readable_same he
    have hj : w.json = x := h6.json.symm.trans h3
    obtain ⟨b', g1, g2⟩ := matches_any (.parse h5) (.inl (exists_json.2 (by rw [hj]; exact readable_ne he))) op rh
    rw [hj] at g2
    rw [answers_one h2 g2]
    exact ⟨w, by rw [if_pos hl]; exact h5, g1⟩
  · rw [if_neg hl] at h1
    obtain ⟨w, h3, h4⟩ := hG _ _ _ h1
    obtain ⟨b', g1, g2⟩ := matches_any (.get h3) (fits_known h4) op rh
    rw [h4.1] at g2
    rw [answers_one h2 g2]
    exact ⟨w, by rw [if_neg hl]; exact h3, g1⟩

theorem asksIn_weaker : WeakerIn (asksIn G) libAsks := by
  refine ⟨asksOf_ask hG, asksIn_holds hG, fun k p b hb => ?_⟩
  obtain ⟨s, hs⟩ := told_total b
  rw [hit_told hb hs]
  constructor
  · rintro ⟨b', s', h1, h2, h3⟩
    have := quoted_inj h1
    subst this
    rw [told_one hs h2]
    exact h3
  · intro h
    exact ⟨b, s, rfl, hs, h⟩

theorem yields_look {doc path r : Bytes} {P : Parts} {o : Option Landing} (hl : ¬ b!".." <+: path)
    (hc : CutUp path P) (hk : ¬ Computes P.comp) (hs : Look (asksIn G) doc P o)
    (h : Onward G (landing P o).text (landing P o).sep (landing P o).rest r) : Gives (get doc path) r := by
  have hg := get_start (noDots hl) (by rw [cut_next hc]; exact (computes_path P).2 hk) doc
  rw [cut_next hc] at hg
  rw [hg]
  exact reaches_onward hG (look_reaches (lookIn_mono (asksIn_weaker hG) hs) _) h

end

end Gjson
