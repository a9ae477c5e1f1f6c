import Verif.Lemmas.Text
import Verif.Lemmas.WholeTotal
/-
The search in any text follows `Spec.Look`, and `get` obeys the rules of `Spec.Yields`, which
always give a result if no modifier is called.
-/
namespace Gjson
open Spec

/-! ### Searches -/

theorem goesInto_dives {P P' : Parts} {c : UInt8} {r : Bytes} (h : GoesInto P P' (c :: r)) :
    (P.path.dives = true ∧ (c = c! '{' ∨ c = c! '[')) ∧ pNext P.path.extra = P'.path := by
  obtain ⟨h1, h2, h3, d, hd, h4⟩ := h
  cases hd
  simp only [List.mem_cons, List.not_mem_nil, or_false] at h4
  exact ⟨⟨(cut_dives h2).2 ⟨h1, h3⟩, h4⟩, cut_next h2⟩

theorem not_goesInto {P : Parts} {c : UInt8} {r : Bytes} (h : ∀ P', ¬ GoesInto P P' (c :: r)) : ¬ (P.path.dives = true ∧ (c = c! '{' ∨ c = c! '[')) := by
  rintro ⟨h1, h2⟩
  obtain ⟨P', hc⟩ := cutUp_total P.rest
  obtain ⟨h3, h4⟩ := (cut_dives hc).1 h1
  exact h P' ⟨h3, hc, h4, c, rfl, by simpa using h2⟩

/-- What the loop of `get_obj` does at a key. -/
theorem loop_key {s kl : Bytes} {c : UInt8} {r : Bytes} (h : KeyAt s kl (c :: r)) (L : Nat) (P : Parts) :
    ∃ m : Bool, (m = true ↔ libAsks.hit P.comp (P.esc || P.wild) kl) ∧ gObjLoop (diveOf L P.path) L P.path s =
      if m then
        if P.path.dives ∧ (c = c! '{' ∨ c = c! '[') then do
          let (res, p) ← gCont get L (pNext P.path.extra) (c :: r)
          if res.exists then .ok (res, p) else gObjLoop (diveOf L P.path) L P.path (c :: r)
        else if (tokVal (L - (c :: r).length) (leafTok (c :: r)).1).exists then
          .ok (tokVal (L - (c :: r).length) (leafTok (c :: r)).1, P.path)
        else gObjLoop (diveOf L P.path) L P.path (leafTok (c :: r)).2
      else gObjLoop (diveOf L P.path) L P.path (leafTok (c :: r)).2 := by
  generalize ht : c :: r = t at h
  cases h with
  | @key b w t hb hw hh =>
    subst ht
    obtain ⟨s, hs⟩ := told_total b
    refine ⟨pKeyMatch s P.path, hit_lib P (keyIs_told hb hs), ?_⟩
    rw [gObjLoop_key _ _ _ (qStr_esc hb _) (skipColon_cut hw hh), keyText_told hs]
    split
    · split
      · rename_i hd
        simp only [diveOf, if_pos hd.1]
      · rfl
    · rfl

theorem loop_alone {s kl : Bytes} (h : KeyAt s kl []) (L : Nat) (P : Parts) :
    gObjLoop (diveOf L P.path) L P.path s = .ok (Value.default, P.path) := by
  generalize ht : ([] : Bytes) = t at h
  cases h with
  | @key b w t hb hw hh =>
    subst ht
    exact gObjLoop_noval _ _ _ (qStr_esc hb _) (skipColon_cut hw (by simp))

theorem taken {s v r : Bytes} (h : ValueAt s v r) (i : Nat) (P : Parts) : Reaches (.ok (tokVal i (leafTok s).1, P.path)) P (some ⟨v, P.sep, P.rest⟩) := by
  obtain ⟨h1, h2, _⟩ := valueAt_tok h i
  have h3 := prov_same (.tok i s) h2
  rw [h1] at h3
  exact ⟨_, _, rfl, h3, (Prov.tok i s).oneText, valueAt_ne h, rfl, rfl⟩

theorem valueAt_cons {s v r : Bytes} (h : ValueAt s v r) : ∃ c q, s = c :: q := by
  cases s with
  | nil => exact absurd (valueAt_lt h) (by simp)
  | cons c q => exact ⟨c, q, rfl⟩

mutual
theorem hunt_reaches {P : Parts} {s : Bytes} {o : Option Landing} (h : Hunt libAsks P s o) (L : Nat) :
    Reaches (gObjLoop (diveOf L P.path) L P.path s) P o := by
  match h with
  | .nil => exact gObjLoop_nil _ _ _
  | .close => exact gObjLoop_close _ _ _ _
  | .skip hc h =>
    simp only [List.mem_cons, List.not_mem_nil, or_false, not_or] at hc
    rw [gObjLoop_skip _ _ _ _ hc.1 hc.2]
    exact hunt_reaches h L
  | .openKey h => exact gObjLoop_nokey _ _ _ (qStr_never h)
  | .alone h => exact loop_alone h L P
  | .pass hk hn hv h =>
    have ih := hunt_reaches h L
    obtain ⟨c, q, rfl⟩ := valueAt_cons hv
    obtain ⟨m, h1, h2⟩ := loop_key hk L P
    rw [h2, if_neg (fun h => hn (h1.1 h)), (valueAt_tok hv 0).2.2]
    exact ih
  | .take hk hh hg hv =>
    obtain ⟨c, q, rfl⟩ := valueAt_cons hv
    obtain ⟨m, h1, h2⟩ := loop_key hk L P
    rw [h2, if_pos (h1.2 hh), if_neg (not_goesInto hg), if_pos (valueAt_tok hv _).2.1]
    exact taken hv _ P
  | .broken (t := t) hk hn hv =>
    cases t with
    | nil => exact loop_alone hk L P
    | cons c q =>
      obtain ⟨m, h1, h2⟩ := loop_key hk L P
      obtain ⟨h3, h4⟩ := noValue_leaf hv
      rw [h2, h3, h4, gObjLoop_nil]
      rcases hn with hn | hn
      · rw [if_neg (fun h => hn (h1.1 h))]; rfl
      · rw [if_neg (not_goesInto hn)]
        cases m <;> rfl
  | .into (t := t) hk hh hg hp =>
    have ih := probe_reaches hp L
    cases t with
    | nil => obtain ⟨_, _, _, _, hd, _⟩ := hg; cases hd
    | cons c q =>
      obtain ⟨m, h1, h2⟩ := loop_key hk L P
      obtain ⟨h3, h4⟩ := goesInto_dives hg
      rw [h2, if_pos (h1.2 hh), if_pos h3, h4]
      obtain ⟨u, p, e1, e2⟩ := ih
      rw [e1, ok_bind]
      simp only
      rw [if_pos (sameAsText_exists e2.1 e2.2.2.1)]
      exact ⟨u, p, rfl, e2⟩
  | .again (P' := P') (t := t) hk hh hg hp h =>
    have ih := probe_reaches hp L
    have ih' := hunt_reaches h L
    cases t with
    | nil => obtain ⟨_, _, _, _, hd, _⟩ := hg; cases hd
    | cons c q =>
      obtain ⟨m, h1, h2⟩ := loop_key hk L P
      obtain ⟨h3, h4⟩ := goesInto_dives hg
      have ih : gCont get L P'.path (c :: q) = _ := ih
      rw [h2, if_pos (h1.2 hh), if_pos h3, h4, ih, ok_bind]
      simp only
      rw [if_neg (by decide)]
      exact ih'
theorem probe_reaches {P : Parts} {s : Bytes} {o : Option Landing} (h : Probe libAsks P s o) (L : Nat) : Reaches (gCont get L P.path s) P o := by
  match h with
  | .object h =>
    unfold gCont
    rw [if_pos (by simp), gObj_cons]
    exact hunt_reaches h L
  | .array (r := r) (vs := vs) hl hp =>
    unfold gCont
    rw [if_neg (by simp)]
    have a1 : Aligned SameAsText (eachToks (L - (c! '[' :: r).length) false (c! '[' :: r)) vs := by
      unfold eachToks; exact listing_toks hl _
    exact picks_reaches hp a1 (eachToks_exist _ _ _) (fun v hv => readable_ne (listing_readable hl v hv))
      fun x hx => (gArr_prov (lines := false) (L := L) (s := c! '[' :: r) hx).oneText
end

theorem gStart_blanks (rec : GetFn) (L : Nat) (path : Path) {w : Bytes} (h : Blank w) (s : Bytes) : gStart rec L path (w ++ s) = gStart rec L path s := by
  induction w with
  | nil => rfl
  | cons c w ih =>
    rw [List.cons_append, gStart, if_pos (h c (by simp))]
    exact ih fun d hd => h d (List.mem_cons_of_mem _ hd)

theorem look_reaches {s : Bytes} {P : Parts} {o : Option Landing} (h : Look libAsks s P o) (L : Nat) : Reaches (gStart get L P.path s) P o := by
  cases h with
  | @inside w s _ _ hw hp =>
    rw [gStart_blanks _ _ _ hw]
    have := probe_reaches hp L
    unfold gCont at this
    cases hp with
    | object => rw [gStart, if_neg (by decide), if_pos rfl]; exact this
    | array => rw [gStart, if_neg (by decide), if_neg (by decide), if_pos rfl]; exact this
  | @nothing w s _ hw hs =>
    rw [gStart_blanks _ _ _ hw]
    cases s with
    | nil => exact (rfl : gStart _ _ _ [] = _)
    | cons c r =>
      obtain ⟨h1, h2⟩ := hs c rfl
      simp only [List.mem_cons, List.not_mem_nil, or_false, not_or] at h1
      have : gStart get L P.path (c :: r) = .ok (Value.default, P.path) := by
        rw [gStart, if_neg (by simpa using h2), if_neg h1.1, if_neg h1.2]
      exact this

theorem reaches_one {x : Res (Value × Path)} {P : Parts} {o o' : Option Landing} (h1 : Reaches x P o) (h2 : Reaches x P o') : o = o' := by
  cases o with
  | none =>
    cases o' with
    | none => rfl
    | some r' =>
      obtain ⟨u, p, e1, e2, _, e3, _⟩ := h2
      have h1 : x = _ := h1
      rw [h1] at e1
      cases e1
      exact absurd (sameAsText_exists e2 e3) (by decide)
  | some r =>
    obtain ⟨u, p, e1, e2, _, e3, e4, e5⟩ := h1
    cases o' with
    | none =>
      have h2 : x = _ := h2
      rw [e1] at h2
      cases h2
      exact absurd (sameAsText_exists e2 e3) (by decide)
    | some r' =>
      obtain ⟨u', p', f1, f2, _, _, f4, f5⟩ := h2
      rw [e1] at f1
      cases f1
      obtain ⟨a, b, c⟩ := r
      obtain ⟨a', b', c'⟩ := r'
      congr 2
      · exact e2.1.symm.trans f2.1
      · exact e4.symm.trans f4
      · exact e5.symm.trans f5

/-! ### Every search has an outcome -/

/-- What a search with the parts `P` needs: that queries and subpaths have outcomes. -/
def PicksAll (A : Asks) (P : Parts) : Prop := ∀ vs : List Bytes, (∀ v ∈ vs, Readable v) → ∃ o, Picks A vs P o

theorem hunt_total {A : Asks} {P : Parts}
    (ih : ∀ P' t, GoesInto P P' t → ∃ o, Probe A P' t o) : ∀ (n : Nat) (s : Bytes), s.length < n → ∃ o, Hunt A P s o := by
  intro n
  induction n with
  | zero => intro s h; omega
  | succ n ihn =>
    intro s hl
    cases s with
    | nil => exact ⟨_, .nil⟩
    | cons c r =>
      have hr : r.length < n := by simp at hl; omega
      by_cases h1 : c = c! '}'
      · subst h1; exact ⟨_, .close⟩
      by_cases h2 : c = c! '"'
      · subst h2
        rcases key_cases r with h | ⟨kl, t, hk⟩
        · exact ⟨_, .openKey h⟩
        have ht : t.length < n := by have := keyAt_lt hk; simp at this hl; omega
        by_cases hit : A.hit P.comp (P.esc || P.wild) kl
        · by_cases hg : ∃ P', GoesInto P P' t
          · obtain ⟨P', hg⟩ := hg
            obtain ⟨o, ho⟩ := ih P' t hg
            cases o with
            | some l => exact ⟨_, .into hk hit hg ho⟩
            | none =>
              obtain ⟨o, h⟩ := ihn t ht
              exact ⟨o, .again hk hit hg ho h⟩
          · rw [not_exists] at hg
            rcases leaf_cases t with ⟨v, q, hv⟩ | ⟨hv, _⟩
            · exact ⟨_, .take hk hit hg hv⟩
            · exact ⟨_, .broken hk (.inr hg) hv⟩
        · rcases leaf_cases t with ⟨v, q, hv⟩ | ⟨hv, _⟩
          · obtain ⟨o, h⟩ := ihn q (by have := valueAt_lt hv; omega)
            exact ⟨o, .pass hk hit hv h⟩
          · exact ⟨_, .broken hk (.inl hit) hv⟩
      · obtain ⟨o, h⟩ := ihn r hr
        exact ⟨o, .skip (by simp [h1, h2]) h⟩

theorem probe_total {A : Asks} : ∀ (n : Nat) {path : Bytes} {P : Parts}, path.length < n → CutUp path P →
    (∀ p' P', Asked p' path → CutUp p' P' → ¬ Computes P'.comp → PicksAll A P') → ¬ Computes P.comp →
    ∀ c r, c ∈ b!"{[" → ∃ o, Probe A P (c :: r) o := by
  intro n
  induction n with
  | zero => intro path P hn; omega
  | succ n ih =>
    intro path P hn hc hp hk c r hb
    simp only [List.mem_cons, List.not_mem_nil, or_false] at hb
    rcases hb with rfl | rfl
    · obtain ⟨o, h⟩ := hunt_total (A := A) (P := P) (fun P' t hg => by
        obtain ⟨h1, h2, h3, d, hd, h4⟩ := hg
        cases t with
        | nil => cases hd
        | cons d' q =>
          cases hd
          have hs : P.sep ≠ 0 := by rw [h1]; decide
          have := cut_short hc hs
          exact ih (path := P.rest) (by omega) h2
            (fun p' P' hp' => hp p' P' (.rest hc hs hp')) h3 _ q h4) _ r (Nat.lt_succ_self _)
      exact ⟨o, .object h⟩
    · obtain ⟨vs, h⟩ := listing_total _ r (Nat.lt_succ_self _)
      obtain ⟨o, ho⟩ := hp path P .self hc hk vs (listing_readable h)
      exact ⟨o, .array h ho⟩

theorem blank_split : ∀ s : Bytes, ∃ w t, s = w ++ t ∧ Blank w ∧ ∀ c ∈ t.head?, 0x20 < c
  | [] => ⟨[], [], rfl, by simp [Blank], by simp⟩
  | c :: r => by
    by_cases h : c ≤ 0x20
    · obtain ⟨w, t, rfl, h1, h2⟩ := blank_split r
      refine ⟨c :: w, t, rfl, ?_, h2⟩
      intro d hd
      rcases List.mem_cons.1 hd with rfl | hd
      · exact h
      · exact h1 d hd
    · refine ⟨[], c :: r, rfl, by simp [Blank], ?_⟩
      intro d hd
      cases hd
      grind

theorem lookAt_total {A : Asks} {path : Bytes} {P : Parts} (hc : CutUp path P)
    (hp : ∀ p' P', Asked p' path → CutUp p' P' → ¬ Computes P'.comp → PicksAll A P') (hk : ¬ Computes P.comp) (s : Bytes) : ∃ o, Look A s P o := by
  obtain ⟨w, t, rfl, hw, ht⟩ := blank_split s
  cases t with
  | nil => exact ⟨_, .nothing hw (by simp)⟩
  | cons c r =>
    by_cases hb : c ∈ b!"{["
    · obtain ⟨o, h⟩ := probe_total _ (Nat.lt_succ_self _) hc hp hk c r hb
      exact ⟨o, .inside hw h⟩
    · exact ⟨_, .nothing hw (by intro d hd; cases hd; exact ⟨hb, ht c rfl⟩)⟩

end Gjson
