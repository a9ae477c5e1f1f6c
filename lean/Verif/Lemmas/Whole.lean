import Verif.SpecWhole
import Verif.Lemmas.SeekTotal
import Verif.Lemmas.Calls
import Verif.Lemmas.Means
import Verif.Lemmas.Route
import Verif.Lemmas.Any
import Verif.Lemmas.Inside
import Verif.Props.EveryPath
/-
The code obeys the rules of `Spec.Obtains`, and for paths that are `Mild` the rules always give a
result in a JSON text.
-/
namespace Gjson
open Spec

/-! ### Searches that ask differently -/

theorem met_entriesOk {vs : List Bytes} {es : List Seen} (h : Spec.Met vs es) : EntriesOk es := by
  intro kl x hm
  obtain ⟨_, _, t, kvs, _, ho, hk⟩ := met_inside h kl x hm
  exact object_ok ho kl x (List.mem_map.2 ⟨(kl, x), hk, rfl⟩)

theorem entriesOk_tail {e : Seen} {es : List Seen} (h : EntriesOk (e :: es)) : EntriesOk es := fun a b hm => h a b (List.mem_cons_of_mem _ hm)

theorem entriesOk_append {es es' : List Seen} (h : EntriesOk es) (h' : EntriesOk es') : EntriesOk (es ++ es') := by
  intro a b hm
  rcases List.mem_append.1 hm with hm | hm
  · exact h a b hm
  · exact h' a b hm

theorem aligned_imp {α β : Type} {R S : α → β → Prop} {as : List α} {bs : List β} (h : Aligned R as bs) (hi : ∀ a b, R a b → S a b) :
    Aligned S as bs := by
  induction h with
  | nil => exact .nil
  | cons h _ ih => exact .cons (hi _ _ h) ih

/-- The second says what the first says, and maybe more. -/
structure Weaker (A B : Asks) : Prop where
  ask : ∀ e g o, A.ask e g o → B.ask e g o
  holds : ∀ lh op rh e b, A.holds lh op rh e b → B.holds lh op rh e b
  hit : ∀ k p kl, StrLit kl → (A.hit k p kl ↔ B.hit k p kl)

theorem picks_mono {A B : Asks} (H : Weaker A B) {vs : List Bytes} {P : Parts} {o : Option Landing} (h : Picks A vs P o) : Picks B vs P o := by
  cases h with
  | index h1 h2 h3 => exact .index h1 h2 h3
  | beyond h1 h2 => exact .beyond h1 h2
  | count h => exact .count h
  | map hg ha => exact .map hg (aligned_imp ha fun e o => H.ask e _ o)
  | first hq ht => exact .first hq fun v hv => H.holds _ _ _ _ _ (ht v hv)
  | all hq ht hs => exact .all hq (fun v hv => H.holds _ _ _ _ _ (ht v hv)) hs
  | allMap hq ht hg ha => exact .allMap hq (fun v hv => H.holds _ _ _ _ _ (ht v hv)) hg (aligned_imp ha fun e o => H.ask e _ o)

mutual
theorem seek_mono {A B : Asks} (H : Weaker A B) {v : Bytes} {P : Parts} {o : Option Landing} (h : Seek A v P o) : Seek B v P o :=
  match h with
  | .scalar h1 h2 => .scalar h1 h2
  | .obj ho hw => .obj ho (among_mono H hw (object_ok ho))
  | .arr ha hp => .arr ha (picks_mono H hp)
theorem among_mono {A B : Asks} (H : Weaker A B) {P : Parts} {es : List Seen} {o : Option Landing} (h : Among A P es o) (hok : EntriesOk es) :
    Among B P es o :=
  match h with
  | .nil => .nil
  | .stop => .stop
  | .skip hn hw => .skip (fun hh => hn ((H.hit _ _ _ (hok _ _ List.mem_cons_self).1).2 hh)) (among_mono H hw (entriesOk_tail hok))
  | .scalar hh h1 h2 => .scalar ((H.hit _ _ _ (hok _ _ List.mem_cons_self).1).1 hh) h1 h2
  | .last hh hs => .last ((H.hit _ _ _ (hok _ _ List.mem_cons_self).1).1 hh) hs
  | .computes hh hc hk => .computes ((H.hit _ _ _ (hok _ _ List.mem_cons_self).1).1 hh) hc hk
  | .into hh hs hk hc hn hf => .into ((H.hit _ _ _ (hok _ _ List.mem_cons_self).1).1 hh) hs hk hc hn (seek_mono H hf)
  | .again hh hs hk hc hn hf hm hw => .again ((H.hit _ _ _ (hok _ _ List.mem_cons_self).1).1 hh) hs hk hc hn (seek_mono H hf) hm
      (among_mono H hw (entriesOk_append (met_entriesOk hm) (entriesOk_tail hok)))
end

theorem hit_content {kl : Bytes} (hl : StrLit kl) (G : Bytes → Bytes → Bytes → Prop) (k : Bytes) (p : Bool) :
    (asksOf G).hit k p kl ↔ libAsks.hit k p kl := by
  constructor
  · rintro ⟨s, h1, h2⟩
    exact ⟨s, content_keyIs h1, h2⟩
  · rintro ⟨s, h1, h2⟩
    obtain ⟨s', h3⟩ := content_total hl
    have := content_unique h3 h1
    subst this
    exact ⟨_, h3, h2⟩

/-! ### The code obeys the rules -/

theorem fits_known {w : Value} {x : Bytes} (h : Fits w x) : w.exists = true ∨ w.kind ≠ .string := by
  by_cases hx : x = []
  · right
    rw [(h.2 hx).kind]
    decide
  · left
    rw [fits_exists h]
    simp [hx]

theorem noDots {path : Bytes} (hl : ¬ b!".." <+: path) : linesPrefix path = (path, false) := by
  unfold linesPrefix
  split
  · rename_i a b rest
    rw [if_neg]
    rintro ⟨rfl, rfl⟩
    exact hl ⟨rest, rfl⟩
  · rfl

theorem sameAsText_fits {v : Value} {x : Bytes} (h : SameAsText v x) : Fits v x := by
  refine ⟨h.1, ?_⟩
  rintro rfl
  obtain ⟨_, _, w, h1, h2⟩ := h
  have : parse [] = .ok Value.default := by decide +kernel
  rw [this] at h1
  cases h1
  exact h2

section
variable {G : Bytes → Bytes → Bytes → Prop} (hG : ∀ doc path r, G doc path r → Gives (get doc path) r)
include hG

theorem asksOf_ask (e g : Bytes) (o : Option Bytes) (h : (asksOf G).ask e g o) : libAsks.ask e g o := by
  obtain ⟨x, h1, rfl⟩ := h
  obtain ⟨w, h2, h3⟩ := hG _ _ _ h1
  refine ⟨w, h2, ?_⟩
  rw [fits_exists h3, h3.1]
  by_cases hx : x = [] <;> simp [hx]

theorem asksOf_holds (lh op rh e : Bytes) (b : Bool) (h : (asksOf G).holds lh op rh e b) : libAsks.holds lh op rh e b := by
  obtain ⟨x, h1, h2⟩ := h
  by_cases hl : lh = []
  · rw [if_pos hl] at h1
    obtain ⟨hv, rfl⟩ := h1
    obtain ⟨h3, h4, w, h5, h6⟩ := leaf_sameAsText hv none
    have hj : w.json = x := h6.json.symm.trans h3
    have he : w.exists = true := exists_json.2 (by rw [hj]; exact isValue_ne_nil hv)
    obtain ⟨b', g1, g2⟩ := matches_any (.parse h5) (.inl he) op rh
    rw [hj] at g2
    rw [answers_one h2 g2]
    exact ⟨w, by rw [if_pos hl]; exact h5, g1⟩
  · rw [if_neg hl] at h1
    obtain ⟨w, h3, h4⟩ := hG _ _ _ h1
    obtain ⟨b', g1, g2⟩ := matches_any (.get h3) (fits_known h4) op rh
    rw [h4.1] at g2
    rw [answers_one h2 g2]
    exact ⟨w, by rw [if_neg hl]; exact h3, g1⟩

theorem onward_goOn {w : Value} {x rest r : Bytes} {sep : UInt8} (hf : Fits w x) (ho : OneText w) (h : Onward G x sep rest r) :
    Gives (goOn w sep rest) r := by
  unfold goOn
  cases h with
  | done => rw [if_pos rfl]; exact ⟨w, rfl, hf⟩
  | more hs h =>
    rw [if_neg hs]
    refine (hG _ _ _ h).congr ?_
    rw [← hf.1]
    exact getIn_same ho rest

theorem reaches_onward {y : Res (Value × Path)} {P : Parts} {o : Option Landing} {r : Bytes} (hr : Reaches y P o)
    (h : Onward G (landing P o).text (landing P o).sep (landing P o).rest r) : Gives (y >>= finish) r := by
  cases o with
  | none =>
    have hr : y = _ := hr
    rw [hr, ok_bind, finish_goOn]
    exact onward_goOn hG fits_default default_oneText h
  | some l =>
    obtain ⟨u, p, rfl, h1, h2, h3, h4, h5⟩ := hr
    rw [ok_bind, finish_goOn, h4, h5]
    exact onward_goOn hG (fits_of h1.1 (sameAsText_exists h1 h3)) h2 h

theorem asksOf_weaker : Weaker (asksOf G) libAsks := ⟨asksOf_ask hG, asksOf_holds hG, fun k p _ hl => hit_content hl G k p⟩

theorem by_look {doc v path r : Bytes} {P : Parts} {o : Option Landing} (hp : Padded v doc) (hv : IsValue v) (hl : ¬ b!".." <+: path)
    (hc : CutUp path P) (hk : ¬ Computes P.comp) (hs : Seek (asksOf G) v P o)
    (h : Onward G (landing P o).text (landing P o).sep (landing P o).rest r) : Gives (get doc path) r := by
  have := get_seek hv hp hc hl hk (seek_mono (asksOf_weaker hG) hs)
  cases o with
  | none =>
    rw [show get doc path = _ from this, finish_goOn]
    exact onward_goOn hG fits_default default_oneText h
  | some l =>
    obtain ⟨u, p, h1, h2, h3, h4, h5⟩ := this
    rw [h1, finish_goOn, h4, h5]
    exact onward_goOn hG (sameAsText_fits h2) h3 h

theorem by_nothing {path r : Bytes} {P : Parts} (hl : ¬ b!".." <+: path) (hc : CutUp path P) (hk : ¬ Computes P.comp)
    (h : Onward G [] P.sep P.rest r) : Gives (get [] path) r := by
  have hg := get_start (noDots hl) (by rw [cut_next hc]; exact (computes_path P).2 hk) []
  rw [cut_next hc, gStart, ok_bind, finish_goOn] at hg
  rw [hg]
  exact onward_goOn hG fits_default default_oneText h

theorem by_lines {doc path r : Bytes} {vs : List Bytes} {P : Parts} {o : Option Landing} (hj : JsonLines doc vs) (hc : CutUp path P)
    (hp : Picks (asksOf G) vs P o) (h : Onward G (landing P o).text (landing P o).sep (landing P o).rest r) :
    Gives (get doc (b!".." ++ path)) r := by
  have a1 : Aligned SameAsText (eachToks (doc.length - doc.length) true doc) vs := by unfold eachToks; exact jsonLines_toks hj _
  have hlp : linesPrefix (b!".." ++ path) = (path, true) := rfl
  have hg : get doc (b!".." ++ path) = (gArr get doc.length true P.path doc >>= finish) := by
    rw [get_eq, getBody, getFirst_eq, hlp, ← cut_next hc]
    simp only [if_true]
    cases gArr get doc.length true (pNext path) doc <;> rfl
  rw [hg]
  refine reaches_onward hG (P := P) (o := o) ?_ h
  unfold gArr
  refine picks_reaches (picks_mono (asksOf_weaker hG) hp) a1 (eachToks_exist _ _ _) ?_ fun x hx => ?_
  · intro v hv
    obtain ⟨w, hw, hs⟩ := aligned_source a1 v hv
    have := (eachToks_exist _ _ _ w hw).1
    rw [exists_json, hs.1] at this
    exact this
  · exact (gArr_prov (lines := true) (L := doc.length) (s := doc) hx).oneText

theorem by_call {doc path n a out x r : Bytes} {P : Parts} (hc : CutUp path P) (hn : CallOf P.comp P.arg n a) (hw : Writes n a doc out)
    (hk : Kept out x) (h : Onward G x P.sep P.rest r) : Gives (get doc path) r := by
  rw [get_call hc hn, writes_ok hw, ok_bind]
  exact onward_goOn hG (kept_ok hk) (intoOwned_oneText _) h

theorem entries_results {doc : Bytes} {es : List (Bytes × Bytes)} {xs : List Bytes} (h : Aligned (fun e x => G doc e.2 x) es xs) :
    ∃ rs, (es.map (·.2)).mapM (get doc) = .ok rs ∧ existing rs = xs.filter (fun x => x ≠ []) ∧
      members ((es.map (·.1)).zip rs) = ((es.zip xs).map fun m => (Spec.quoted m.1.1, m.2)).filter fun m => m.2 ≠ [] := by
  induction h with
  | nil => exact ⟨[], rfl, rfl, rfl⟩
  | @cons e x es xs h _ ih =>
    obtain ⟨rs, h1, h2, h3⟩ := ih
    obtain ⟨w, h4, h5⟩ := hG _ _ _ h
    refine ⟨w :: rs, ?_, ?_, ?_⟩
    · rw [List.map_cons, List.mapM_cons, h4, ok_bind, h1]
      rfl
    · unfold existing at h2 ⊢
      simp only [List.filter_cons, fits_exists h5]
      by_cases hx : x = []
      · simp [hx] at h2 ⊢; exact h2
      · simp [hx, h5.1] at h2 ⊢; exact h2
    · unfold members at h3 ⊢
      simp only [List.map_cons, List.zip_cons_cons, List.filter_cons, fits_exists h5]
      by_cases hx : x = []
      · simp [hx] at h3 ⊢; exact h3
      · simp [hx, h5.1, jsonString_quoted] at h3 ⊢; exact h3

theorem by_array {doc path s r : Bytes} {P : Parts} {es : List (Bytes × Bytes)} {xs : List Bytes} (hc : CutUp path P)
    (hk : P.comp = c! '[' :: (s ++ b!"]")) (he : EntriesOf s es) (hx : Aligned (fun e x => G doc e.2 x) es xs)
    (h : Onward G (arrayText (xs.filter fun x => x ≠ [])) P.sep P.rest r) : Gives (get doc path) r := by
  obtain ⟨rs, h1, h2, _⟩ := entries_results hG hx
  rw [get_arr hc hk he, h1, ok_bind]
  refine onward_goOn hG (fits_of ?_ (by rw [exists_json, multiArray, mkOwned_json]; simp [arrayText])) (.inl rfl) h
  rw [multiArray, mkOwned_json, h2]

theorem by_object {doc path s r : Bytes} {P : Parts} {es : List (Bytes × Bytes)} {xs : List Bytes} (hc : CutUp path P)
    (hk : P.comp = c! '{' :: (s ++ b!"}")) (he : EntriesOf s es) (hx : Aligned (fun e x => G doc e.2 x) es xs)
    (h : Onward G (objectText (((es.zip xs).map fun m => (Spec.quoted m.1.1, m.2)).filter fun m => m.2 ≠ [])) P.sep P.rest r) :
    Gives (get doc path) r := by
  obtain ⟨rs, h1, _, h2⟩ := entries_results hG hx
  rw [get_obj hc hk he, h1, ok_bind]
  refine onward_goOn hG (fits_of ?_ (by rw [exists_json, multiObject, mkOwned_json]; simp [objectText])) (.inl rfl) h
  rw [multiObject, mkOwned_json, h2]

theorem by_ok {doc path r : Bytes} (h : ObtainsBy G doc path r) : Gives (get doc path) r := by
  cases h with
  | look h1 h2 h3 h4 h5 h6 h7 => exact by_look hG h1 h2 h3 h4 h5 h6 h7
  | nothing h1 h2 h3 h4 => exact by_nothing hG h1 h2 h3 h4
  | lines h1 h2 h3 h4 => exact by_lines hG h1 h2 h3 h4
  | call h1 h2 h3 h4 h5 => exact by_call hG h1 h2 h3 h4 h5
  | array h1 h2 h3 h4 h5 => exact by_array hG h1 h2 h3 h4 h5
  | object h1 h2 h3 h4 h5 => exact by_object hG h1 h2 h3 h4 h5
  | wrong h1 h2 => exact ⟨_, get_wrong h1 doc h2, fits_default⟩

end

theorem obtainsAt_ok (n : Nat) : ∀ doc path r, ObtainsAt n doc path r → Gives (get doc path) r := by
  induction n with
  | zero => intro _ _ _ h; exact h.elim
  | succ n ih => intro doc path r h; exact by_ok ih h

end Gjson
