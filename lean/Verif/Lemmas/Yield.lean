import Verif.Lemmas.TextMods
/-
`get` obeys the rules of `Spec.Yields` in any text, and they give a result if every modifier
that is called has one.
-/
namespace Gjson
open Spec

/-! ### The code obeys the rules -/

section
variable {G : Bytes → Bytes → Bytes → Prop} (hG : ∀ doc path r, G doc path r → Gives (get doc path) r)
include hG

theorem yields_lines {doc path r : Bytes} {vs : List Bytes} {P : Parts} {o : Option Landing} (hj : Listing doc vs) (hc : CutUp path P)
    (hp : Picks (asksIn G) vs P o) (h : Onward G (landing P o).text (landing P o).sep (landing P o).rest r) :
    Gives (get doc (b!".." ++ path)) r := by
  have a1 : Aligned SameAsText (eachToks (doc.length - doc.length) true doc) vs := by unfold eachToks; exact listing_toks hj _
  have hlp : linesPrefix (b!".." ++ path) = (path, true) := rfl
  have hg : get doc (b!".." ++ path) = (gArr get doc.length true P.path doc >>= finish) := by
    rw [get_eq, getBody, getFirst_eq, hlp, ← cut_next hc]
    simp only [if_true]
    cases gArr get doc.length true (pNext path) doc <;> rfl
  rw [hg]
  refine reaches_onward hG (P := P) (o := o) ?_ h
  unfold gArr
  exact picks_reaches (picksIn_mono (asksIn_weaker hG) (listing_readable hj) hp) a1 (eachToks_exist _ _ _)
    (fun v hv => readable_ne (listing_readable hj v hv)) fun x hx => (gArr_prov (lines := true) (L := doc.length) (s := doc) hx).oneText

theorem yields_ok {doc path r : Bytes} (h : YieldsBy G doc path r) : Gives (get doc path) r := by
  cases h with
  | look h3 h4 h5 h6 h7 => exact yields_look hG h3 h4 h5 h6 h7
  | lines h1 h2 h3 h4 => exact yields_lines hG h1 h2 h3 h4
  | call hc hn hw hf hk h =>
    rw [get_call hc hn, turns_ok hw, ok_bind]
    exact onward_goOn hG (parsed_fits hf hk) (intoOwned_oneText _) h
  | array h1 h2 h3 h4 h5 => exact by_array hG h1 h2 h3 h4 h5
  | object h1 h2 h3 h4 h5 => exact by_object hG h1 h2 h3 h4 h5
  | wrong h1 h2 => exact ⟨_, get_wrong h1 doc h2, fits_default⟩

end

theorem yieldsAt_ok (n : Nat) : ∀ doc path r, YieldsAt n doc path r → Gives (get doc path) r := by
  induction n with
  | zero => intro _ _ _ h; exact h.elim
  | succ n ih => intro doc path r h; exact yields_ok ih h

/-! ### There is a result -/

/-- Every modifier called in the path makes something of every fair text. -/
def Covered (path : Bytes) : Prop :=
  ∀ q P n a, Asked q path → CutUp q P → CallOf P.comp P.arg n a → ∀ doc, Fair doc → ∃ out, Turns n a doc out ∧ Fair out

theorem covered_asked {p q : Bytes} (h : Covered p) (hq : Asked q p) : Covered q := fun r P n a hr => h r P n a (asked_trans hr hq)
theorem noCalls_asked {p q : Bytes} (h : NoCalls p) (hq : Asked q p) : NoCalls q := fun r P n a hr => h r P n a (asked_trans hr hq)

/-- `G` gives a result for shorter paths, and it is what the code gives. -/
structure SettledIn (G : Bytes → Bytes → Bytes → Prop) (l : Nat) : Prop where
  sound : ∀ doc path r, G doc path r → Gives (get doc path) r
  total : ∀ path, path.length < l → Covered path → ∀ doc, Fair doc ∨ NoCalls path → ∃ r, G doc path r ∧ Fair r

/-- What is found is fair, and behind it stands a part of the path. -/
structure LandsWell (p : Bytes) (l : Landing) : Prop where
  fair : Fair l.text
  short : l.sep ≠ 0 → l.rest.length < p.length
  asked : l.sep ≠ 0 → Asked l.rest p

theorem leads_self {p : Bytes} {P : Parts} {x : Bytes} (hc : CutUp p P) (h : Fair x) : LandsWell p ⟨x, P.sep, P.rest⟩ :=
  ⟨h, cut_short hc, fun hs => .rest hc hs .self⟩

theorem fair_array (vs : List Bytes) : Fair (arrayText vs) := fair_cont (by decide)
theorem fair_object (ms : List (Bytes × Bytes)) : Fair (objectText ms) := fair_cont (by decide)
theorem fair_numeral (n : Nat) : Fair (numeral n) := fair_readable (readable_value (stock_value.number n))

theorem leads_group {p g r x : Bytes} {sep : UInt8} {P : Parts} (hc : CutUp p P) (hs : P.sep = c! '.') (hg : GroupOf P.rest g sep r) (hx : Fair x) :
    LandsWell p ⟨x, sep, r⟩ := by
  have hs' : P.sep ≠ 0 := by rw [hs]; decide
  have h2 := cut_short hc hs'
  have := (groupOf_rest hg).length_le
  exact ⟨hx, fun _ => by show r.length < _; omega, fun h => .rest hc hs' (groupOf_asked hg h)⟩

theorem picks_leads {A : Asks} {vs : List Bytes} (hv : ∀ v ∈ vs, Readable v) {p : Bytes} {P : Parts} {o : Option Landing} (hc : CutUp p P)
    (h : Picks A vs P o) : LandsWell p (landing P o) := by
  cases h with
  | index h1 h2 h3 => exact leads_self hc (fair_readable (hv _ (List.mem_of_getElem? h3)))
  | beyond => exact leads_self hc fair_nil
  | count => exact leads_self hc (fair_numeral _)
  | map hg ha => exact leads_group hc rfl hg (fair_array _)
  | @first q _ _ _ _ _ test hq ht =>
    cases hf : vs.find? test with
    | none => exact leads_self hc fair_nil
    | some v => exact leads_self hc (fair_readable (hv v (List.mem_of_find?_eq_some hf)))
  | all => exact leads_self hc (fair_array _)
  | allMap hq ht hg ha => exact leads_group hc rfl hg (fair_array _)

theorem leads_into {p : Bytes} {P : Parts} {l : Landing} (hc : CutUp p P) (hs : P.sep = c! '.') (h : LandsWell P.rest l) : LandsWell p l := by
  have hs' : P.sep ≠ 0 := by rw [hs]; decide
  exact ⟨h.fair, fun h' => Nat.lt_trans (h.short h') (cut_short hc hs'), fun h' => .rest hc hs' (h.asked h')⟩

mutual
theorem hunt_leads {A : Asks} {P : Parts} {s : Bytes} {o : Option Landing} (h : Hunt A P s o) {p : Bytes} (hc : CutUp p P) : LandsWell p (landing P o) :=
  match h with
  | .nil => leads_self hc fair_nil
  | .close => leads_self hc fair_nil
  | .skip _ h => hunt_leads h hc
  | .openKey _ => leads_self hc fair_nil
  | .alone _ => leads_self hc fair_nil
  | .pass _ _ _ h => hunt_leads h hc
  | .take _ _ _ hv => leads_self hc (fair_readable ⟨_, _, hv⟩)
  | .broken _ _ _ => leads_self hc fair_nil
  | .into _ _ hg hp => leads_into hc hg.1 (probe_leads hp hg.2.1)
  | .again _ _ _ _ h => hunt_leads h hc
theorem probe_leads {A : Asks} {P : Parts} {s : Bytes} {o : Option Landing} (h : Probe A P s o) {p : Bytes} (hc : CutUp p P) : LandsWell p (landing P o) :=
  match h with
  | .object h => hunt_leads h hc
  | .array hl hp => picks_leads (listing_readable hl) hc hp
end

theorem look_leads {A : Asks} {P : Parts} {s : Bytes} {o : Option Landing} (h : Look A s P o) {p : Bytes} (hc : CutUp p P) : LandsWell p (landing P o) := by
  cases h with
  | inside _ hp => exact probe_leads hp hc
  | nothing => exact leads_self hc fair_nil

section
variable {G : Bytes → Bytes → Bytes → Prop} {path : Bytes} (hS : SettledIn G path.length) (hM : Covered path)
include hS hM

theorem leads_onward {l : Landing} (h : LandsWell path l) : ∃ r, Onward G l.text l.sep l.rest r ∧ Fair r := by
  obtain ⟨x, sep, rest⟩ := l
  by_cases hs : sep = 0
  · subst hs; exact ⟨x, .done, h.fair⟩
  · obtain ⟨r, h1, h2⟩ := hS.total rest (h.short hs) (covered_asked hM (h.asked hs)) x (.inl h.fair)
    exact ⟨r, .more hs h1, h2⟩

theorem askIn_total {g : Bytes} (hl : g.length < path.length) (hi : Asked g path) : ∀ vs : List Bytes, (∀ v ∈ vs, Readable v) →
    ∃ os, Aligned (fun e o => (asksIn G).ask e g o) vs os
  | [], _ => ⟨[], .nil⟩
  | v :: vs, h => by
    obtain ⟨os, h1⟩ := askIn_total hl hi vs fun x hx => h x (List.mem_cons_of_mem _ hx)
    obtain ⟨x, h3, _⟩ := hS.total g hl (covered_asked hM hi) v (.inl (fair_readable (h v (by simp))))
    exact ⟨(if x = [] then none else some x) :: os, .cons ⟨x, h3, rfl⟩ h1⟩

theorem testIn_total {lh op rh e : Bytes} (hl : lh ≠ [] → lh.length < path.length ∧ Asked lh path) (he : Readable e) :
    ∃ b, (asksIn G).holds lh op rh e b := by
  by_cases h : lh = []
  · obtain ⟨v, _, ⟨h3, h4, w, h5, h6⟩, _⟩ := readable_same he
    have hj : w.json = e := h6.json.symm.trans h3
    obtain ⟨b, _, g2⟩ := matches_any (.parse h5) (.inl (exists_json.2 (by rw [hj]; exact readable_ne he))) op rh
    rw [hj] at g2
    exact ⟨b, e, by rw [if_pos h], g2⟩
  · obtain ⟨x, h1, _⟩ := hS.total lh (hl h).1 (covered_asked hM (hl h).2) e (.inl (fair_readable he))
    obtain ⟨w, h3, h4⟩ := hS.sound _ _ _ h1
    obtain ⟨b, _, g2⟩ := matches_any (.get h3) (fits_known h4) op rh
    rw [h4.1] at g2
    exact ⟨b, x, by rw [if_neg h]; exact h1, g2⟩

open Classical in
theorem queriesIn_total {lh op rh : Bytes} (hl : lh ≠ [] → lh.length < path.length ∧ Asked lh path) {vs : List Bytes} (hv : ∀ v ∈ vs, Readable v) :
    ∃ test : Bytes → Bool, ∀ v ∈ vs, (asksIn G).holds lh op rh v (test v) := by
  refine ⟨fun v => decide ((asksIn G).holds lh op rh v true), fun e he => ?_⟩
  obtain ⟨b, hb⟩ := testIn_total hS hM hl (hv e he) (op := op) (rh := rh)
  by_cases ht : (asksIn G).holds lh op rh e true
  · simp [ht]
  · cases b with
    | true => exact absurd hb ht
    | false => simpa [ht] using hb

theorem picksIn_total {p : Bytes} {P : Parts} (hc : CutUp p P) (hp : Asked p path) : PicksAll (asksIn G) P := by
  intro vs hv
  have plain : (∀ c ∈ P.comp.head?, c ≠ c! '#') → ∃ o, Picks (asksIn G) vs P o := by
    intro hk
    obtain ⟨k, e, w, sep, m, rest⟩ := P
    by_cases hx : ∃ n v, IndexText k n ∧ n < 2 ^ 63 ∧ vs[n]? = some v
    · obtain ⟨n, v, h1, h2, h3⟩ := hx
      exact ⟨_, .index h1 h2 h3⟩
    · refine ⟨none, .beyond hk fun n h1 h2 => ?_⟩
      cases h3 : vs[n]? with
      | none => rfl
      | some v => exact absurd ⟨n, v, h1, h2, h3⟩ hx
  have hle := (asked_infix hp).length_le
  have short : P.sep = c! '.' → ∀ {g r : Bytes} {sep : UInt8}, GroupOf P.rest g sep r → g.length < path.length ∧ Asked g path := by
    intro hs g r sep hg
    have hs' : P.sep ≠ 0 := by rw [hs]; decide
    have h2 := cut_short hc hs'
    have := (groupOf_prefix hg).length_le
    exact ⟨by omega, asked_trans (.group hc hs hg .self) hp⟩
  have left : ∀ {lh op rh : Bytes}, QueryCut P.comp lh op rh → (lh ≠ [] → lh.length < path.length ∧ Asked lh path) := by
    intro lh op rh hq h
    have h1 := (query_left hq).2 h
    have h3 := (cut_rest hc).2.length_le
    exact ⟨by omega, asked_trans (.left hc hq h .self) hp⟩
  have query : ∀ {q h rest : Bytes} {sep : UInt8}, h = [] ∨ h = b!"#" → P = ⟨b!"#(" ++ q ++ b!")" ++ h, false, false, sep, 0, rest⟩ →
      ∃ o, Picks (asksIn G) vs P o := by
    rintro q h rest sep hh rfl
    obtain ⟨lh, op, rh, hq⟩ := queryCut_exists (b!"#(" ++ q ++ b!")" ++ h)
    obtain ⟨test, ht⟩ := queriesIn_total hS hM (left hq) hv (op := op) (rh := rh)
    rcases hh with rfl | rfl
    · simp only [List.append_nil] at hq ⊢
      exact ⟨_, .first hq ht⟩
    · have e : b!"#(" ++ q ++ b!")" ++ b!"#" = b!"#(" ++ q ++ b!")#" := by simp
      rw [e] at hq
      simp only [e] at short ⊢
      by_cases hs : sep = c! '.'
      · subst hs
        obtain ⟨g, s, r, hg⟩ := groupOf_exists _ rest (Nat.le_refl _)
        obtain ⟨h1, h2⟩ := short rfl hg
        obtain ⟨os, ho⟩ := askIn_total hS hM h1 h2 (vs.filter test) fun v hv' => hv v (List.mem_filter.1 hv').1
        exact ⟨_, .allMap hq ht hg ho⟩
      · exact ⟨_, .all hq ht hs⟩
  have hc' := hc
  cases hc with
  | key _ h _ => exact plain fun c hc => by have := h c hc; simp only [List.mem_cons, List.not_mem_nil, or_false, not_or] at this; exact this.2.1
  | @keyBackslash k _ _ _ h =>
    refine plain fun c hc => ?_
    cases k with
    | nil => simp at hc; subst hc; decide
    | cons d t =>
      have := h c (by simpa using hc)
      simp only [List.mem_cons, List.not_mem_nil, or_false, not_or] at this; exact this.2.1
  | @count t rest sep _ =>
    by_cases hs : sep = c! '.'
    · subst hs
      obtain ⟨g, s, r, hg⟩ := groupOf_exists _ rest (Nat.le_refl _)
      obtain ⟨h1, h2⟩ := short rfl hg
      obtain ⟨os, ho⟩ := askIn_total hS hM h1 h2 vs hv
      exact ⟨_, .map hg ho⟩
    · exact ⟨_, .count hs⟩
  | query _ h _ => exact query h rfl
  | queryOpen _ h => exact query h rfl
  | badHash => exact plain (by simp)
  | badClose => exact plain (by simp)
  | badAfter => exact plain (by simp)
  | badOpen => exact plain (by simp)
  | @multi g _ _ _ hb h _ => obtain ⟨o, _, _, _, _, _, rfl⟩ := hb; exact plain fun c hc => by have := h c hc; simp at this; grind
  | @multiMore g _ _ hb h _ => obtain ⟨o, _, _, _, _, _, rfl⟩ := hb; exact plain fun c hc => by have := h c hc; simp at this; grind
  | multiOpen h _ => exact plain fun c hc => by simp at hc h; grind
  | modifier => exact plain fun c hc => by simp at hc; subst hc; decide
  | modifierBackslash => exact plain fun c hc => by simp at hc; subst hc; decide
  | argument => exact plain fun c hc => by simp at hc; subst hc; decide
  | argumentJson => exact plain fun c hc => by simp at hc; subst hc; decide
  | argumentMore => exact plain fun c hc => by simp at hc; subst hc; decide
  | argumentOpen => exact plain fun c hc => by simp at hc; subst hc; decide

theorem subIn_total {doc : Bytes} (hd : Fair doc ∨ NoCalls path) : ∀ {es : List (Bytes × Bytes)},
    (∀ e ∈ es, Asked e.2 path ∧ e.2.length < path.length) → ∃ xs, Aligned (fun e x => G doc e.2 x) es xs
  | [], _ => ⟨[], .nil⟩
  | e :: es, h => by
    obtain ⟨xs, h1⟩ := subIn_total hd fun x hx => h x (List.mem_cons_of_mem e hx)
    obtain ⟨hi, hl⟩ := h e (by simp)
    obtain ⟨x, h3, _⟩ := hS.total e.2 hl (covered_asked hM hi) doc (hd.imp id fun h => noCalls_asked h hi)
    exact ⟨x :: xs, .cons h3 h1⟩

theorem yields_front (doc : Bytes) (hk : b!".." <+: path ∨ ∃ P, CutUp path P ∧ ¬ Computes P.comp) : ∃ r, YieldsBy G doc path r ∧ Fair r := by
  by_cases hl : b!".." <+: path
  · obtain ⟨p, rfl⟩ := hl
    obtain ⟨vs, hj⟩ := listing_total _ doc (Nat.lt_succ_self _)
    obtain ⟨P, hc⟩ := cutUp_total p
    obtain ⟨o, ho⟩ := picksIn_total hS hM hc (.lines .self) vs (listing_readable hj)
    have hL := picks_leads (listing_readable hj) hc ho
    obtain ⟨r, h1, h2⟩ := leads_onward hS hM (l := landing P o)
      ⟨hL.fair, fun h => Nat.lt_trans (hL.short h) (by simp; omega), fun h => .lines (hL.asked h)⟩
    exact ⟨r, .lines hj hc ho h1, h2⟩
  · obtain ⟨P, hc, hk⟩ := hk.resolve_left hl
    obtain ⟨o, ho⟩ := lookAt_total hc (fun p' P' hp' hc' _ => picksIn_total hS hM hc' hp') hk doc
    obtain ⟨r, h1, h2⟩ := leads_onward hS hM (look_leads ho hc)
    exact ⟨r, .look hl hc hk ho h1, h2⟩

theorem yields_total {doc : Bytes} (hd : Fair doc ∨ NoCalls path) : ∃ r, YieldsBy G doc path r ∧ Fair r := by
  by_cases hl : b!".." <+: path
  · exact yields_front hS hM doc (.inl hl)
  · obtain ⟨P, hc⟩ := cutUp_total path
    have onw : ∀ {x : Bytes}, Fair x → ∃ r, Onward G x P.sep P.rest r ∧ Fair r := fun hx => leads_onward hS hM (leads_self hc hx)
    by_cases hk : Computes P.comp
    · have sub : ∀ {s : Bytes} {o c : UInt8} {es : List (Bytes × Bytes)}, P.comp = o :: (s ++ [c]) →
          o = c! '[' ∧ c = c! ']' ∨ o = c! '{' ∧ c = c! '}' → EntriesOf s es →
          ∃ xs, Aligned (fun e x => G doc e.2 x) es xs := by
        intro s o c es hp ho he
        refine subIn_total hS hM hd fun e hm => ⟨.entry hc hp ho he hm .self, ?_⟩
        have h3 := (entriesOf_sub he e hm).length_le
        have h4 := (cut_rest hc).2.length_le
        rw [hp] at h4
        simp at h4
        omega
      rcases C68_kinds hk with h | ⟨s, h⟩ | ⟨s, h⟩ | h
      · obtain ⟨m, a, hm⟩ := call_of hc h
        have hf : Fair doc := hd.resolve_right fun h => h path P m a .self hc hm
        obtain ⟨out, h1, h2⟩ := hM path P m a .self hc hm doc hf
        obtain ⟨x, h3⟩ := parsed_total out
        obtain ⟨r, h4, h5⟩ := onw (fair_parsed h3)
        exact ⟨r, .call hc hm h1 h2 h3 h4, h5⟩
      · obtain ⟨es, he⟩ := entriesOf_exists s
        obtain ⟨xs, h1⟩ := sub h (.inl ⟨rfl, rfl⟩) he
        obtain ⟨r, h4, h5⟩ := onw (x := arrayText (xs.filter fun x => x ≠ [])) (fair_array _)
        exact ⟨r, .array hc h he h1 h4, h5⟩
      · obtain ⟨es, he⟩ := entriesOf_exists s
        obtain ⟨xs, h1⟩ := sub h (.inr ⟨rfl, rfl⟩) he
        obtain ⟨r, h4, h5⟩ := onw (x := objectText (((es.zip xs).map fun m => (Spec.quoted m.1.1, m.2)).filter fun m => m.2 ≠ [])) (fair_object _)
        exact ⟨r, .object hc h he h1 h4, h5⟩
      · exact ⟨[], .wrong hc h, fair_nil⟩
    · exact yields_front hS hM doc (.inr ⟨P, hc, hk⟩)

end

theorem yieldsAt_total (n : Nat) : ∀ path, path.length < n → Covered path → ∀ doc, Fair doc ∨ NoCalls path →
    ∃ r, YieldsAt n doc path r ∧ Fair r := by
  induction n with
  | zero => intro _ h; omega
  | succ n ih =>
    intro path hl hM doc hd
    exact yields_total ⟨yieldsAt_ok n, fun p hp => ih p (by omega)⟩ hM hd

/-! ### Texts that begin with an open string -/

theorem yields_more {x rest r : Bytes} {sep : UInt8} {w : Value} (hj : w.json = x) (ho : OneText w) (h : Onward Yields x sep rest r) :
    ∃ v, goOn w sep rest = .ok v ∧ v.json = r := by
  unfold goOn
  cases h with
  | done => rw [if_pos rfl]; exact ⟨w, rfl, hj⟩
  | more hs h =>
    rw [if_neg hs]
    obtain ⟨n, h⟩ := h
    have h1 := yieldsAt_ok n _ _ _ h
    rw [← hj] at h1
    obtain ⟨v, h2, h3⟩ := h1.congr (getIn_same ho rest)
    exact ⟨v, h2, h3.1⟩

theorem onward_yields {n : Nat} {x rest r : Bytes} {sep : UInt8} (h : Onward (YieldsAt n) x sep rest r) : Onward Yields x sep rest r := by
  cases h with
  | done => exact .done
  | more hs h => exact .more hs ⟨_, h⟩

theorem brings_results {B : Bytes → Bytes → Bytes → Prop} (hB : ∀ doc path r, B doc path r → ∃ v, get doc path = .ok v ∧ v.json = r)
    {doc : Bytes} {es : List (Bytes × Bytes)} {xs : List Bytes} (h : Aligned (fun e x => B doc e.2 x) es xs) :
    ∃ rs, (es.map (·.2)).mapM (get doc) = .ok rs ∧ existing rs = xs.filter (fun x => x ≠ []) ∧
      members ((es.map (·.1)).zip rs) = ((es.zip xs).map fun m => (Spec.quoted m.1.1, m.2)).filter fun m => m.2 ≠ [] := by
  induction h with
  | nil => exact ⟨[], rfl, rfl, rfl⟩
  | @cons e x es xs h _ ih =>
    obtain ⟨rs, h1, h2, h3⟩ := ih
    obtain ⟨w, h4, h5⟩ := hB _ _ _ h
    have he : w.exists = decide (x ≠ []) := by
      by_cases hx : x = []
      · rw [decide_eq_false (by simpa using hx), Bool.eq_false_iff, Ne, exists_json, h5]; simpa using hx
      · rw [decide_eq_true hx, exists_json, h5]; exact hx
    refine ⟨w :: rs, ?_, ?_, ?_⟩
    · rw [List.map_cons, List.mapM_cons, h4, ok_bind, h1]
      rfl
    · unfold existing at h2 ⊢
      simp only [List.filter_cons, he]
      by_cases hx : x = []
      · simp [hx] at h2 ⊢; exact h2
      · simp [hx, h5] at h2 ⊢; exact h2
    · unfold members at h3 ⊢
      simp only [List.map_cons, List.zip_cons_cons, List.filter_cons, he]
      by_cases hx : x = []
      · simp [hx] at h3 ⊢; exact h3
      · simp [hx, h5, jsonString_quoted] at h3 ⊢; exact h3

theorem bringsAt_ok (n : Nat) : ∀ doc path r, BringsAt n doc path r → ∃ v, get doc path = .ok v ∧ v.json = r := by
  induction n with
  | zero => intro _ _ _ h; exact h.elim
  | succ n ih =>
    intro doc path r h
    cases h with
    | yields h =>
      obtain ⟨m, h⟩ := h
      obtain ⟨w, h1, h2⟩ := yieldsAt_ok m _ _ _ h
      exact ⟨w, h1, h2.1⟩
    | @call n a out x r P hc hn hw hk h =>
      rw [get_call hc hn, turns_ok hw, ok_bind]
      exact yields_more (by rw [jsonIntoOwned_json (pParse_oneText _ 0), parsed_json hk 0]) (intoOwned_oneText _) h
    | array hc hk he hx h =>
      obtain ⟨rs, h1, h2, _⟩ := brings_results ih hx
      rw [get_arr hc hk he, h1, ok_bind]
      exact yields_more (by rw [multiArray, mkOwned_json, h2]) (.inl rfl) h
    | object hc hk he hx h =>
      obtain ⟨rs, h1, _, h2⟩ := brings_results ih hx
      rw [get_obj hc hk he, h1, ok_bind]
      exact yields_more (by rw [multiObject, mkOwned_json, h2]) (.inl rfl) h

theorem unpretty_covered {path : Bytes} (hp : Unpretty path) : Covered path :=
  fun q P n a h1 h2 h3 _ hd => turns_total (hp q P n a h1 h2 h3) a hd

theorem unpretty_asked {p q : Bytes} (h : Unpretty p) (hq : Asked q p) : Unpretty q := fun r P n a hr => h r P n a (asked_trans hr hq)

theorem bringsAt_total (n : Nat) : ∀ path, path.length < n → Unpretty path → ∀ doc, ∃ r, BringsAt n doc path r := by
  induction n with
  | zero => intro _ h; omega
  | succ n ih =>
    intro path hl hM doc
    have hS : SettledIn (YieldsAt path.length) path.length := ⟨yieldsAt_ok _, fun p hp hc doc hd => by
      exact yieldsAt_total _ p hp hc doc hd⟩
    have front : ∀ h, ∃ r, BringsAt (n + 1) doc path r := fun h => by
      obtain ⟨r, h1, _⟩ := yields_front hS (unpretty_covered hM) doc h
      exact ⟨r, .yields ⟨path.length + 1, h1⟩⟩
    obtain ⟨P, hc⟩ := cutUp_total path
    have onw : ∀ {x : Bytes}, Fair x → ∃ r, Onward Yields x P.sep P.rest r := fun hx => by
      obtain ⟨r, h1, _⟩ := leads_onward hS (unpretty_covered hM) (leads_self hc hx)
      exact ⟨r, onward_yields h1⟩
    by_cases hd : b!".." <+: path
    · exact front (.inl hd)
    by_cases hk : Computes P.comp
    · have sub : ∀ {s : Bytes} {o c : UInt8} {es : List (Bytes × Bytes)}, P.comp = o :: (s ++ [c]) →
          o = c! '[' ∧ c = c! ']' ∨ o = c! '{' ∧ c = c! '}' → EntriesOf s es →
          ∃ xs, Aligned (fun e x => BringsAt n doc e.2 x) es xs := by
        intro s o c es hp ho he
        have hs : ∀ e ∈ es, Asked e.2 path ∧ e.2.length < n := fun e hm => by
          refine ⟨.entry hc hp ho he hm .self, ?_⟩
          have h3 := (entriesOf_sub he e hm).length_le
          have h4 := (cut_rest hc).2.length_le
          rw [hp] at h4
          simp at h4
          omega
        clear he
        induction es with
        | nil => exact ⟨[], .nil⟩
        | cons e es ihe =>
          obtain ⟨xs, h1⟩ := ihe fun x hx => hs x (List.mem_cons_of_mem e hx)
          obtain ⟨x, h2⟩ := ih e.2 (hs e (by simp)).2 (unpretty_asked hM (hs e (by simp)).1) doc
          exact ⟨x :: xs, .cons h2 h1⟩
      rcases C68_kinds hk with h | ⟨s, h⟩ | ⟨s, h⟩ | h
      · obtain ⟨m, a, hm⟩ := call_of hc h
        obtain ⟨out, h1, _⟩ := turns_always (hM path P m a .self hc hm) a doc
        obtain ⟨x, h3⟩ := parsed_total out
        obtain ⟨r, h4⟩ := onw (fair_parsed h3)
        exact ⟨r, .call hc hm h1 h3 h4⟩
      · obtain ⟨es, he⟩ := entriesOf_exists s
        obtain ⟨xs, h1⟩ := sub h (.inl ⟨rfl, rfl⟩) he
        obtain ⟨r, h4⟩ := onw (x := arrayText (xs.filter fun x => x ≠ [])) (fair_array _)
        exact ⟨r, .array hc h he h1 h4⟩
      · obtain ⟨es, he⟩ := entriesOf_exists s
        obtain ⟨xs, h1⟩ := sub h (.inr ⟨rfl, rfl⟩) he
        obtain ⟨r, h4⟩ := onw (x := objectText (((es.zip xs).map fun m => (Spec.quoted m.1.1, m.2)).filter fun m => m.2 ≠ [])) (fair_object _)
        exact ⟨r, .object hc h he h1 h4⟩
      · exact ⟨[], .yields ⟨1, .wrong hc h⟩⟩
    · exact front (.inr ⟨P, hc, hk⟩)

end Gjson
