import Verif.Lemmas.Whole
import Verif.Props.EveryCall
import Verif.Props.Path
/-
For paths that are `Mild` the rules of `Spec.Obtains` give a result in every JSON text.
-/
namespace Gjson
open Spec

/-- A class of JSON values, closed under what paths do apart from modifiers. -/
structure Stock (T : Bytes → Prop) : Prop where
  value : ∀ {v}, T v → IsValue v
  elem : ∀ {t vs}, IsArray t vs → T t → ∀ v ∈ vs, T v
  member : ∀ {t ms}, IsObject t ms → T t → ∀ m ∈ ms, T m.2
  number : ∀ n, T (numeral n)
  array : ∀ {es : List Elem}, (∀ e ∈ es, e.Wf) → (∀ e ∈ es, T e.val) → T (c! '[' :: (elemsText es ++ [c! ']']))
  object : ∀ {ms : List Member}, (∀ m ∈ ms, m.Wf) → (∀ m ∈ ms, T m.val) → T (c! '{' :: (membersText ms ++ [c! '}']))

/-- A value of the class, behind an array or object perhaps white space, or nothing. -/
def Nice (T : Bytes → Prop) (x : Bytes) : Prop :=
  x = [] ∨ ∃ v w, x = v ++ w ∧ T v ∧ Ws w ∧ (w = [] ∨ kindOf v = .object ∨ kindOf v = .array)
/-- A value of the class with white space around it, or nothing. -/
def NiceDoc (T : Bytes → Prop) (x : Bytes) : Prop := x = [] ∨ ∃ v, Padded v x ∧ T v

/-- The modifier `n` with the argument `a` stays within the class. -/
def Makes (T : Bytes → Prop) (n a : Bytes) : Prop :=
  ∀ doc, NiceDoc T doc → ∃ out x, Writes n a doc out ∧ Kept out x ∧ Nice T x

/-- So do all modifiers called in the path. -/
def Tamed (T : Bytes → Prop) (path : Bytes) : Prop := ∀ q P n a, Asked q path → CutUp q P → CallOf P.comp P.arg n a → Makes T n a

theorem nice_doc {T : Bytes → Prop} {x : Bytes} (h : Nice T x) : NiceDoc T x := by
  rcases h with rfl | ⟨v, w, rfl, h1, h2, _⟩
  · exact .inl rfl
  · exact .inr ⟨v, ⟨[], w, ws_nil, h2, by simp⟩, h1⟩
theorem nice_nil {T : Bytes → Prop} : Nice T [] := .inl rfl
theorem nice_value {T : Bytes → Prop} {v : Bytes} (h : T v) : Nice T v := .inr ⟨v, [], by simp, h, ws_nil, .inl rfl⟩

theorem kept_nice {T : Bytes → Prop} (hT : Stock T) {out : Bytes} (h : NiceDoc T out) : ∃ x, Kept out x ∧ Nice T x := by
  rcases h with rfl | ⟨v, ⟨w1, w2, h1, h2, rfl⟩, hv⟩
  · exact ⟨[], .blank ws_nil, nice_nil⟩
  · by_cases hc : IsCont v
    · refine ⟨v ++ w2, .cont h1 ?_, .inr ⟨v, w2, rfl, hv, h2, .inr hc⟩⟩
      rw [kindOf_append (isValue_ne_nil (hT.value hv))]
      exact hc
    · have hc' := hc
      unfold IsCont at hc'
      rw [not_or] at hc'
      exact ⟨v, .scalar (hT.value hv) hc'.1 hc'.2 ⟨w1, w2, h1, h2, rfl⟩, nice_value hv⟩

theorem stock_array {T : Bytes → Prop} (hT : Stock T) {xs : List Bytes} (h : ∀ x ∈ xs, x ≠ [] ∧ Nice T x) : T (arrayText xs) := by
  have key : ∃ es : List Elem, es.map Elem.text = xs ∧ (∀ e ∈ es, e.Wf) ∧ ∀ e ∈ es, T e.val := by
    induction xs with
    | nil => exact ⟨[], rfl, by simp, by simp⟩
    | cons r rs ih =>
      obtain ⟨es, h1, h2, h3⟩ := ih fun x hx => h x (List.mem_cons_of_mem _ hx)
      obtain ⟨hne, hs⟩ := h r (by simp)
      rcases hs with hs | ⟨v, w, e, g1, g3, _⟩
      · exact absurd hs hne
      · refine ⟨⟨[], v, w⟩ :: es, ?_, ?_, ?_⟩
        · rw [List.map_cons, h1]; simp [Elem.text, e]
        · intro x hx
          rcases List.mem_cons.1 hx with rfl | hx
          · exact ⟨ws_nil, g3⟩
          · exact h2 x hx
        · intro x hx
          rcases List.mem_cons.1 hx with rfl | hx
          · exact g1
          · exact h3 x hx
  obtain ⟨es, rfl, h2, h3⟩ := key
  have := hT.array h2 h3
  rw [commaSep_elems] at this
  exact this

theorem stock_object {T : Bytes → Prop} (hT : Stock T) {ms : List (Bytes × Bytes)} (h : ∀ m ∈ ms, StrLit m.1 ∧ m.2 ≠ [] ∧ Nice T m.2) :
    T (objectText ms) := by
  have key : ∃ es : List Member, es.map Member.text = (ms.map fun kv => kv.1 ++ c! ':' :: kv.2) ∧ (∀ e ∈ es, e.Wf) ∧ ∀ e ∈ es, T e.val := by
    induction ms with
    | nil => exact ⟨[], rfl, by simp, by simp⟩
    | cons r rs ih =>
      obtain ⟨es, h1, h2, h3⟩ := ih fun x hx => h x (List.mem_cons_of_mem _ hx)
      obtain ⟨hk, hne, hs⟩ := h r (by simp)
      rcases hs with hs | ⟨v, w, e, g1, g3, _⟩
      · exact absurd hs hne
      · refine ⟨⟨[], r.1, [], [], v, w⟩ :: es, ?_, ?_, ?_⟩
        · rw [List.map_cons, h1]; simp [Member.text, e]
        · intro x hx
          rcases List.mem_cons.1 hx with rfl | hx
          · exact ⟨ws_nil, hk, ws_nil, ws_nil, g3⟩
          · exact h2 x hx
        · intro x hx
          rcases List.mem_cons.1 hx with rfl | hx
          · exact g1
          · exact h3 x hx
  obtain ⟨es, h1, h2, h3⟩ := key
  have := hT.object h2 h3
  rw [commaSep_members, h1] at this
  exact this

theorem nice_array {T : Bytes → Prop} (hT : Stock T) {xs : List Bytes} (h : ∀ x ∈ xs, x ≠ [] ∧ Nice T x) : Nice T (arrayText xs) :=
  nice_value (stock_array hT h)

theorem nice_object {T : Bytes → Prop} (hT : Stock T) {ms : List (Bytes × Bytes)} (h : ∀ m ∈ ms, StrLit m.1 ∧ m.2 ≠ [] ∧ Nice T m.2) :
    Nice T (objectText ms) := nice_value (stock_object hT h)

/-! ### The paths asked -/

theorem asked_trans {q r p : Bytes} (h : Asked q r) (h' : Asked r p) : Asked q p := by
  induction h' with
  | self => exact h
  | lines _ ih => exact .lines ih
  | rest hc hs _ ih => exact .rest hc hs ih
  | group hc hs hg _ ih => exact .group hc hs hg ih
  | left hc hq hn _ ih => exact .left hc hq hn ih
  | entry hc hp ho he hm _ ih => exact .entry hc hp ho he hm ih

theorem tamed_asked {T : Bytes → Prop} {p q : Bytes} (h : Tamed T p) (hq : Asked q p) : Tamed T q :=
  fun r P n a hr hc hn => h r P n a (asked_trans hr hq) hc hn

theorem groupOf_asked {s g r : Bytes} {sep : UInt8} (h : GroupOf s g sep r) (hs : sep ≠ 0) : Asked r s := by
  induction h with
  | last hc _ => exact .rest hc hs .self
  | more hc _ ih => exact .rest hc (show c! '.' ≠ (0 : UInt8) by decide) (ih hs)

theorem groupOf_rest {s g r : Bytes} {sep : UInt8} (h : GroupOf s g sep r) : r <:+: s := by
  induction h with
  | last hc _ => exact (cut_rest hc).1
  | more hc _ ih => exact ih.trans (cut_rest hc).1

theorem query_left {k lh op rh : Bytes} (h : QueryCut k lh op rh) : lh <:+: k ∧ (lh ≠ [] → lh.length < k.length) := by
  cases h with
  | @query q h s l o r lh rh _ hs hc hl _ =>
    have h1 : lh <:+: l := by rw [← trimOf_trim hl]; exact trim_infix _
    have h2 : l <:+: s := (List.prefix_append l (o ++ r)).isInfix.trans (by rw [← (cutAtOp_split hc).1])
    have h3 : s <:+: q := by rw [← trimOf_trim hs]; exact trim_infix _
    have h4 := h1.trans (h2.trans h3)
    refine ⟨h4.trans ⟨b!"#(", b!")" ++ h, by simp⟩, fun _ => ?_⟩
    have := h4.length_le
    simp
    omega
  | none => exact ⟨List.nil_infix, fun h => absurd rfl h⟩

theorem entriesOf_sub {s : Bytes} {es : List (Bytes × Bytes)} (h : EntriesOf s es) : ∀ e ∈ es, e.2 <:+: s := by
  induction h with
  | last => simp
  | @lastNamed k p _ _ => simp only [List.mem_singleton]; rintro e rfl; exact ⟨k ++ b!":", [], by simp⟩
  | lost => simp
  | @more p k r es _ _ _ ih =>
    intro e he
    rcases List.mem_cons.1 he with rfl | he
    · exact (List.prefix_append _ _).isInfix
    · exact (ih e he).trans ⟨p ++ b!",", [], by simp⟩
  | @moreNamed k p r es _ _ _ ih =>
    intro e he
    rcases List.mem_cons.1 he with rfl | he
    · exact ⟨k ++ b!":", c! ',' :: r, by simp⟩
    · exact (ih e he).trans ⟨k ++ b!":" ++ p ++ b!",", [], by simp⟩

theorem asked_infix {q p : Bytes} (h : Asked q p) : q <:+: p := by
  induction h with
  | self => exact List.infix_rfl
  | lines _ ih => exact ih.trans (List.suffix_append _ _).isInfix
  | rest hc _ _ ih => exact ih.trans (cut_rest hc).1
  | group hc _ hg _ ih => exact ih.trans ((groupOf_prefix hg).isInfix.trans (cut_rest hc).1)
  | left hc hq _ _ ih => exact ih.trans ((query_left hq).1.trans (cut_rest hc).2)
  | @entry _ s o c P _ _ hc hp _ he hm _ ih =>
    have h2 : s <:+: P.comp := ⟨[o], [c], by rw [hp]; simp⟩
    exact ih.trans ((entriesOf_sub he _ hm).trans (h2.trans (cut_rest hc).2))

/-- `G` gives a result for shorter paths, and it is what the code gives. -/
structure Settled (T : Bytes → Prop) (G : Bytes → Bytes → Bytes → Prop) (l : Nat) : Prop where
  sound : ∀ doc path r, G doc path r → Gives (get doc path) r
  total : ∀ path, path.length < l → Tamed T path → ∀ doc, NiceDoc T doc → ∃ r, G doc path r ∧ Nice T r

/-- What is found by the search is a value, and behind it stands a part of the path. -/
structure Lands (T : Bytes → Prop) (p : Bytes) (l : Landing) : Prop where
  nice : Nice T l.text
  short : l.sep ≠ 0 → l.rest.length < p.length
  asked : l.sep ≠ 0 → Asked l.rest p

theorem cut_short {p : Bytes} {P : Parts} (hc : CutUp p P) (hs : P.sep ≠ 0) : P.rest.length < p.length := by
  have h2 := congrArg List.length ((cutUp_comp hc).2 hs)
  simp at h2
  omega

theorem lands_self {T : Bytes → Prop} {p : Bytes} {P : Parts} {x : Bytes} (hc : CutUp p P) (h : Nice T x) : Lands T p ⟨x, P.sep, P.rest⟩ :=
  ⟨h, cut_short hc, fun hs => .rest hc hs .self⟩

section
variable {T : Bytes → Prop} (hT : Stock T) {G : Bytes → Bytes → Bytes → Prop} {path : Bytes} (hS : Settled T G path.length) (hM : Tamed T path)
include hS hM

theorem lands_onward {l : Landing} (h : Lands T path l) : ∃ r, Onward G l.text l.sep l.rest r ∧ Nice T r := by
  obtain ⟨x, sep, rest⟩ := l
  by_cases hs : sep = 0
  · subst hs; exact ⟨x, .done, h.nice⟩
  · obtain ⟨r, h1, h2⟩ := hS.total rest (h.short hs) (tamed_asked hM (h.asked hs)) x (nice_doc h.nice)
    exact ⟨r, .more hs h1, h2⟩

theorem ask_total {g : Bytes} (hl : g.length < path.length) (hi : Asked g path) : ∀ vs : List Bytes, (∀ v ∈ vs, T v) →
    ∃ os, Aligned (fun e o => (asksOf G).ask e g o) vs os ∧ ∀ x ∈ os.filterMap id, x ≠ [] ∧ Nice T x
  | [], _ => ⟨[], .nil, by simp⟩
  | v :: vs, h => by
    obtain ⟨os, h1, h2⟩ := ask_total hl hi vs fun x hx => h x (List.mem_cons_of_mem _ hx)
    obtain ⟨x, h3, h4⟩ := hS.total g hl (tamed_asked hM hi) v (nice_doc (nice_value (h v (by simp))))
    refine ⟨(if x = [] then none else some x) :: os, .cons ⟨x, h3, rfl⟩ h1, ?_⟩
    intro y hy
    by_cases hx : x = []
    · rw [if_pos hx, List.filterMap_cons_none rfl] at hy
      exact h2 y hy
    · rw [if_neg hx, List.filterMap_cons_some (f := id) (a := some x) (b := x) rfl] at hy
      rcases List.mem_cons.1 hy with rfl | hy
      · exact ⟨hx, h4⟩
      · exact h2 y hy

include hT in
theorem test_total {lh op rh e : Bytes} (hl : lh ≠ [] → lh.length < path.length ∧ Asked lh path) (ht : T e) :
    ∃ b, (asksOf G).holds lh op rh e b := by
  have he := hT.value ht
  by_cases h : lh = []
  · obtain ⟨h3, h4, w, h5, h6⟩ := leaf_sameAsText he none
    have hj : w.json = e := h6.json.symm.trans h3
    have hx : w.exists = true := exists_json.2 (by rw [hj]; exact isValue_ne_nil he)
    obtain ⟨b, _, g2⟩ := matches_any (.parse h5) (.inl hx) op rh
    rw [hj] at g2
    exact ⟨b, e, by rw [if_pos h]; exact ⟨he, rfl⟩, g2⟩
  · obtain ⟨x, h1, _⟩ := hS.total lh (hl h).1 (tamed_asked hM (hl h).2) e (nice_doc (nice_value ht))
    obtain ⟨w, h3, h4⟩ := hS.sound _ _ _ h1
    obtain ⟨b, _, g2⟩ := matches_any (.get h3) (fits_known h4) op rh
    rw [h4.1] at g2
    exact ⟨b, x, by rw [if_neg h]; exact h1, g2⟩

include hT in
open Classical in
theorem queries_total {lh op rh : Bytes} (hl : lh ≠ [] → lh.length < path.length ∧ Asked lh path) {vs : List Bytes} (hv : ∀ v ∈ vs, T v) :
    ∃ test : Bytes → Bool, ∀ v ∈ vs, (asksOf G).holds lh op rh v (test v) := by
  refine ⟨fun v => decide ((asksOf G).holds lh op rh v true), fun e he => ?_⟩
  obtain ⟨b, hb⟩ := test_total hT hS hM hl (hv e he) (op := op) (rh := rh)
  by_cases ht : (asksOf G).holds lh op rh e true
  · simp [ht]
  · cases b with
    | true => exact absurd hb ht
    | false => simpa [ht] using hb

include hT in
theorem pick_total {p : Bytes} {P : Parts} (hc : CutUp p P) (hp : Asked p path) {vs : List Bytes} (hv : ∀ v ∈ vs, T v) :
    ∃ o, Picks (asksOf G) vs P o ∧ Lands T p (landing P o) := by
  have plain : (∀ c ∈ P.comp.head?, c ≠ c! '#') → ∃ o, Picks (asksOf G) vs P o ∧ Lands T p (landing P o) := by
    intro hk
    obtain ⟨k, e, w, sep, m, rest⟩ := P
    by_cases hx : ∃ n v, IndexText k n ∧ n < 2 ^ 63 ∧ vs[n]? = some v
    · obtain ⟨n, v, h1, h2, h3⟩ := hx
      exact ⟨_, .index h1 h2 h3, lands_self hc (nice_value (hv v (List.mem_of_getElem? h3)))⟩
    · refine ⟨none, .beyond hk fun n h1 h2 => ?_, lands_self hc nice_nil⟩
      cases h3 : vs[n]? with
      | none => rfl
      | some v => exact absurd ⟨n, v, h1, h2, h3⟩ hx
  have hle := (asked_infix hp).length_le
  have short : P.sep = c! '.' → ∀ {g r : Bytes} {sep : UInt8}, GroupOf P.rest g sep r → g.length < path.length ∧ Asked g path ∧
      (sep ≠ 0 → r.length < p.length) ∧ (sep ≠ 0 → Asked r p) := by
    intro hs g r sep hg
    have hs' : P.sep ≠ 0 := by rw [hs]; decide
    have h2 := cut_short hc hs'
    have := (groupOf_prefix hg).length_le
    have := (groupOf_rest hg).length_le
    exact ⟨by omega, asked_trans (.group hc hs hg .self) hp, fun _ => by omega, fun h => .rest hc hs' (groupOf_asked hg h)⟩
  have left : ∀ {lh op rh : Bytes}, QueryCut P.comp lh op rh → (lh ≠ [] → lh.length < path.length ∧ Asked lh path) := by
    intro lh op rh hq h
    have h1 := (query_left hq).2 h
    have h3 := (cut_rest hc).2.length_le
    exact ⟨by omega, asked_trans (.left hc hq h .self) hp⟩
  have query : ∀ {q h rest : Bytes} {sep : UInt8}, h = [] ∨ h = b!"#" → P = ⟨b!"#(" ++ q ++ b!")" ++ h, false, false, sep, 0, rest⟩ →
      ∃ o, Picks (asksOf G) vs P o ∧ Lands T p (landing P o) := by
    rintro q h rest sep hh rfl
    obtain ⟨lh, op, rh, hq⟩ := queryCut_exists (b!"#(" ++ q ++ b!")" ++ h)
    obtain ⟨test, ht⟩ := queries_total hT hS hM (left hq) hv (op := op) (rh := rh)
    rcases hh with rfl | rfl
    · simp only [List.append_nil] at hq ⊢
      rw [List.append_nil] at hc
      refine ⟨_, .first hq ht, ?_⟩
      cases hf : vs.find? test with
      | none => exact lands_self hc nice_nil
      | some v => exact lands_self hc (nice_value (hv v (List.mem_of_find?_eq_some hf)))
    · have e : b!"#(" ++ q ++ b!")" ++ b!"#" = b!"#(" ++ q ++ b!")#" := by simp
      rw [e] at hq
      simp only [e] at short ⊢
      by_cases hs : sep = c! '.'
      · subst hs
        obtain ⟨g, s, r, hg⟩ := groupOf_exists _ rest (Nat.le_refl _)
        obtain ⟨h1, h2, h3, h4⟩ := short rfl hg
        obtain ⟨os, ho, hn⟩ := ask_total hS hM h1 h2 (vs.filter test) fun v hv' => hv v (List.mem_filter.1 hv').1
        exact ⟨_, .allMap hq ht hg ho, nice_array hT hn, h3, h4⟩
      · refine ⟨_, .all hq ht hs, lands_self hc (nice_array hT fun x hx => ?_)⟩
        have := hv x (List.mem_filter.1 hx).1
        exact ⟨isValue_ne_nil (hT.value this), nice_value this⟩
  have hc' := hc
  cases hc with
  | key _ h _ => exact plain fun c hc => by have := h c hc; simp only [List.mem_cons, List.not_mem_nil, or_false, not_or] at this; exact this.2.1
  | @keyBackslash k _ _ _ h =>
    refine plain fun c hc => ?_
    cases k with
    | nil => simp at hc; subst hc; decide
    | cons d t =>
      have := h c (by simpa using hc)
      simp only [List.mem_cons, List.not_mem_nil, or_false, not_or] at this; exact this.2.1
  | @count t rest sep _ =>
    by_cases hs : sep = c! '.'
    · subst hs
      obtain ⟨g, s, r, hg⟩ := groupOf_exists _ rest (Nat.le_refl _)
      obtain ⟨h1, h2, h3, h4⟩ := short rfl hg
      obtain ⟨os, ho, hn⟩ := ask_total hS hM h1 h2 vs hv
      exact ⟨_, .map hg ho, nice_array hT hn, h3, h4⟩
    · exact ⟨_, .count hs, lands_self hc' (nice_value (hT.number _))⟩
  | query _ h _ => exact query h rfl
  | queryOpen _ h => exact query h rfl
  | badHash => exact plain (by simp)
  | badClose => exact plain (by simp)
  | badAfter => exact plain (by simp)
  | badOpen => exact plain (by simp)
  | @multi g _ _ _ hb h _ => obtain ⟨o, _, _, _, _, _, rfl⟩ := hb; exact plain fun c hc => by have := h c hc; simp at this; grind
  | @multiMore g _ _ hb h _ => obtain ⟨o, _, _, _, _, _, rfl⟩ := hb; exact plain fun c hc => by have := h c hc; simp at this; grind
  | multiOpen h _ => exact plain fun c hc => by simp at hc h; grind
  | modifier => exact plain fun c hc => by simp at hc; subst hc; decide
  | modifierBackslash => exact plain fun c hc => by simp at hc; subst hc; decide
  | argument => exact plain fun c hc => by simp at hc; subst hc; decide
  | argumentJson => exact plain fun c hc => by simp at hc; subst hc; decide
  | argumentMore => exact plain fun c hc => by simp at hc; subst hc; decide
  | argumentOpen => exact plain fun c hc => by simp at hc; subst hc; decide

end

theorem met_stock {T : Bytes → Prop} (hT : Stock T) {vs : List Bytes} {es : List Seen} (h : Spec.Met vs es) (hv : ∀ v ∈ vs, T v) :
    ∀ kl v, .member kl v ∈ es → T v := by
  induction h with
  | nil => intro _ _ h; simp at h
  | str _ => intro _ _ h; simp at h
  | scalar _ _ _ _ ih => exact ih fun x hx => hv x (List.mem_cons_of_mem _ hx)
  | obj ho =>
    intro kl v h
    simp only [List.mem_append, List.mem_map, List.mem_singleton, reduceCtorEq, or_false] at h
    obtain ⟨m, h1, h2⟩ := h
    cases h2
    exact hT.member ho (hv _ (by simp)) m h1
  | arr ha _ ih =>
    refine ih fun x hx => ?_
    rcases List.mem_append.1 hx with hx | hx
    · exact hT.elem ha (hv _ (by simp)) x hx
    · exact hv x (List.mem_cons_of_mem _ hx)

open Classical in
theorem entry_total {T : Bytes → Prop} (hT : Stock T) {G : Bytes → Bytes → Bytes → Prop} {p : Bytes} {P P' : Parts} (hc : CutUp p P)
    (hcut : CutUp P.rest P') (ih : P.sep = c! '.' → ∀ v, T v → ∃ o, Seek (asksOf G) v P' o ∧ Lands T P.rest (landing P' o)) (n : Nat) :
    ∀ es, weight es ≤ n → (∀ kl v, .member kl v ∈ es → T v) → ∃ o, Among (asksOf G) P es o ∧ Lands T p (landing P o) := by
  induction n with
  | zero =>
    intro es hn _
    match es with
    | [] => exact ⟨_, .nil, lands_self hc nice_nil⟩
    | .stop :: es => exact ⟨_, .stop, lands_self hc nice_nil⟩
    | .member kl v :: es => simp [weight] at hn
  | succ n ihn =>
    intro es hn hok
    match es with
    | [] => exact ⟨_, .nil, lands_self hc nice_nil⟩
    | .stop :: es => exact ⟨_, .stop, lands_self hc nice_nil⟩
    | .member kl v :: es =>
      have hv := hok kl v (by simp)
      have hes : ∀ kl v, .member kl v ∈ es → T v := fun a b h => hok a b (List.mem_cons_of_mem _ h)
      simp only [weight] at hn
      by_cases hit : (asksOf G).hit P.comp (P.esc || P.wild) kl
      · by_cases hs : P.sep = c! '.'
        · by_cases hcomp : Computes P'.comp
          · exact ⟨_, .computes hit hcut hcomp, lands_self hc (nice_value hv)⟩
          · by_cases hcv : IsCont v
            · obtain ⟨o, ho, hl⟩ := ih hs v hv
              cases o with
              | none =>
                obtain ⟨es', h1, h2, _⟩ := met_one (hT.value hv)
                have h3 := met_stock hT h1 (by simpa using hv)
                obtain ⟨o, h4, h5⟩ := ihn (es' ++ es) (by rw [weight_append]; omega) (by
                  intro a b h
                  rcases List.mem_append.1 h with h | h
                  · exact h3 a b h
                  · exact hes a b h)
                exact ⟨o, .again hit hs hcv hcut hcomp ho h1 h4, h5⟩
              | some r =>
                have hs' : P.sep ≠ 0 := by rw [hs]; decide
                exact ⟨_, .into hit hs hcv hcut hcomp ho, hl.nice, fun h => Nat.lt_trans (hl.short h) (cut_short hc hs'),
                  fun h => .rest hc hs' (hl.asked h)⟩
            · unfold IsCont at hcv
              rw [not_or] at hcv
              exact ⟨_, .scalar hit hcv.1 hcv.2, lands_self hc (nice_value hv)⟩
        · exact ⟨_, .last hit hs, lands_self hc (nice_value hv)⟩
      · obtain ⟨o, h, h'⟩ := ihn es (by omega) hes
        exact ⟨o, .skip hit h, h'⟩

theorem look_total {T : Bytes → Prop} (hT : Stock T) {G : Bytes → Bytes → Bytes → Prop} {path : Bytes} (hS : Settled T G path.length)
    (hM : Tamed T path) : ∀ (n : Nat) {p : Bytes} {P : Parts}, p.length < n → Asked p path → CutUp p P →
    ∀ v, T v → ∃ o, Seek (asksOf G) v P o ∧ Lands T p (landing P o) := by
  intro n
  induction n with
  | zero =>
    intro p P hn
    omega
  | succ n ih =>
    intro p P hn hp hc v hv
    by_cases hcont : IsCont v
    · rcases isCont_cases (hT.value hv) hcont with ⟨kvs, ho⟩ | ⟨vs, ha⟩
      · obtain ⟨P', hcut⟩ := cutUp_total P.rest
        obtain ⟨o, h, h'⟩ := entry_total hT (G := G) hc hcut (fun hs v hv => by
          have hs' : P.sep ≠ 0 := by rw [hs]; decide
          have := cut_short hc hs'
          exact ih (p := P.rest) (by omega) (asked_trans (.rest hc hs' .self) hp) hcut v hv)
          _ (kvs.map fun m => .member m.1 m.2) (Nat.le_refl _) (by
            intro kl x hm
            obtain ⟨m, h1, h2⟩ := List.mem_map.1 hm
            cases h2
            exact hT.member ho hv m h1)
        exact ⟨o, .obj ho h, h'⟩
      · obtain ⟨o, h, h'⟩ := pick_total hT hS hM hc hp (hT.elem ha hv)
        exact ⟨o, .arr ha h, h'⟩
    · unfold IsCont at hcont
      rw [not_or] at hcont
      exact ⟨_, .scalar hcont.1 hcont.2, lands_self hc nice_nil⟩

/-- JSON Lines of the class. -/
theorem lines_one {T : Bytes → Prop} (hT : Stock T) {doc : Bytes} (h : NiceDoc T doc) : ∃ vs, JsonLines doc vs ∧ ∀ v ∈ vs, T v := by
  rcases h with rfl | ⟨v, ⟨w1, w2, h1, h2, rfl⟩, hv⟩
  · exact ⟨[], .nil ws_nil, by simp⟩
  · cases w2 with
    | nil => rw [List.append_nil]; exact ⟨[v], .last h1 (hT.value hv), by simpa using hv⟩
    | cons c r => exact ⟨[v], .cons h1 (hT.value hv) (h2 c (by simp)) (.nil fun x hx => h2 x (by simp [hx])), by simpa using hv⟩

theorem means_key_nil {k : Bytes} (h : Selector k) : Means [] k [] := by
  have := Means.empty (k := k) (t := []) (.selector h) .done
  rwa [List.append_nil] at this

theorem sub_total {T : Bytes → Prop} {G : Bytes → Bytes → Bytes → Prop} {path doc : Bytes} (hS : Settled T G path.length) (hM : Tamed T path)
    (hd : NiceDoc T doc) : ∀ {es : List (Bytes × Bytes)}, (∀ e ∈ es, Asked e.2 path ∧ e.2.length < path.length) →
    ∃ xs, Aligned (fun e x => G doc e.2 x) es xs ∧ ∀ x ∈ xs, Nice T x
  | [], _ => ⟨[], .nil, by simp⟩
  | e :: es, h => by
    obtain ⟨xs, h1, h2⟩ := sub_total hS hM hd fun x hx => h x (List.mem_cons_of_mem e hx)
    obtain ⟨hi, hl⟩ := h e (by simp)
    obtain ⟨x, h3, h4⟩ := hS.total e.2 hl (tamed_asked hM hi) doc hd
    exact ⟨x :: xs, .cons h3 h1, by
      intro y hy
      rcases List.mem_cons.1 hy with rfl | hy
      · exact h4
      · exact h2 y hy⟩

theorem lines_values {doc : Bytes} {vs : List Bytes} (h : JsonLines doc vs) : ∀ v ∈ vs, IsValue v := by
  induction h with
  | nil => simp
  | last _ hv => simpa using hv
  | cons _ hv _ _ ih =>
    intro x hx
    rcases List.mem_cons.1 hx with rfl | hx
    · exact hv
    · exact ih x hx

theorem by_lines_total {T : Bytes → Prop} (hT : Stock T) {G : Bytes → Bytes → Bytes → Prop} {p doc : Bytes} {vs : List Bytes}
    (hS : Settled T G (b!".." ++ p).length) (hM : Tamed T (b!".." ++ p)) (hj : JsonLines doc vs) (hv : ∀ v ∈ vs, T v) :
    ∃ r, ObtainsBy G doc (b!".." ++ p) r ∧ Nice T r := by
  obtain ⟨P, hc⟩ := cutUp_total p
  obtain ⟨o, ho, hL⟩ := pick_total hT hS hM hc (.lines .self) hv
  obtain ⟨r, h1, h2⟩ := lands_onward hS hM (l := landing P o) ⟨hL.nice, fun h => Nat.lt_trans (hL.short h) (by simp; omega), fun h => .lines (hL.asked h)⟩
  exact ⟨r, .lines hj hc ho h1, h2⟩

theorem by_total {T : Bytes → Prop} (hT : Stock T) {G : Bytes → Bytes → Bytes → Prop} {path doc : Bytes} (hS : Settled T G path.length)
    (hM : Tamed T path) (hd : NiceDoc T doc) : ∃ r, ObtainsBy G doc path r ∧ Nice T r := by
  by_cases hl : b!".." <+: path
  · obtain ⟨p, rfl⟩ := hl
    obtain ⟨vs, hj, hv⟩ := lines_one hT hd
    exact by_lines_total hT hS hM hj hv
  · obtain ⟨P, hc⟩ := cutUp_total path
    have onw : ∀ {x : Bytes}, Nice T x → ∃ r, Onward G x P.sep P.rest r ∧ Nice T r := fun hx => lands_onward hS hM (lands_self hc hx)
    by_cases hk : Computes P.comp
    · have sub : ∀ {s : Bytes} {o c : UInt8} {es : List (Bytes × Bytes)}, P.comp = o :: (s ++ [c]) →
          o = c! '[' ∧ c = c! ']' ∨ o = c! '{' ∧ c = c! '}' → EntriesOf s es →
          ∃ xs, Aligned (fun e x => G doc e.2 x) es xs ∧ ∀ x ∈ xs, Nice T x := by
        intro s o c es hp ho he
        refine sub_total hS hM hd fun e hm => ⟨.entry hc hp ho he hm .self, ?_⟩
        have h3 := (entriesOf_sub he e hm).length_le
        have h4 := (cut_rest hc).2.length_le
        rw [hp] at h4
        simp at h4
        omega
      rcases C68_kinds hk with h | ⟨s, h⟩ | ⟨s, h⟩ | h
      · obtain ⟨m, a, hm⟩ := call_of hc h
        obtain ⟨out, x, h1, h2, h3⟩ := hM path P m a .self hc hm doc hd
        obtain ⟨r, h4, h5⟩ := onw h3
        exact ⟨r, .call hc hm h1 h2 h4, h5⟩
      · obtain ⟨es, he⟩ := entriesOf_exists s
        obtain ⟨xs, h1, h2⟩ := sub h (.inl ⟨rfl, rfl⟩) he
        obtain ⟨r, h4, h5⟩ := onw (x := arrayText (xs.filter fun x => x ≠ [])) (nice_array hT fun x hx => by
          rw [List.mem_filter] at hx
          exact ⟨by simpa using hx.2, h2 x hx.1⟩)
        exact ⟨r, .array hc h he h1 h4, h5⟩
      · obtain ⟨es, he⟩ := entriesOf_exists s
        obtain ⟨xs, h1, h2⟩ := sub h (.inr ⟨rfl, rfl⟩) he
        obtain ⟨r, h4, h5⟩ := onw (x := objectText (((es.zip xs).map fun m => (Spec.quoted m.1.1, m.2)).filter fun m => m.2 ≠ [])) (nice_object hT fun m hm => by
          rw [List.mem_filter, List.mem_map] at hm
          obtain ⟨⟨⟨e, x⟩, hz, rfl⟩, hne⟩ := hm
          exact ⟨quoted_lit _, by simpa using hne, h2 x (List.of_mem_zip hz).2⟩)
        exact ⟨r, .object hc h he h1 h4, h5⟩
      · exact ⟨[], .wrong hc h, nice_nil⟩
    · rcases hd with rfl | ⟨v, hp, hv⟩
      · obtain ⟨r, h1, h2⟩ := onw nice_nil
        exact ⟨r, .nothing hl hc hk h1, h2⟩
      · obtain ⟨o, ho, hL⟩ := look_total hT hS hM _ (Nat.lt_succ_self _) .self hc v hv
        obtain ⟨r, h1, h2⟩ := lands_onward hS hM hL
        exact ⟨r, .look hp (hT.value hv) hl hc hk ho h1, h2⟩

theorem obtainsAt_total {T : Bytes → Prop} (hT : Stock T) (n : Nat) : ∀ path, path.length < n → Tamed T path → ∀ doc, NiceDoc T doc →
    ∃ r, ObtainsAt n doc path r ∧ Nice T r := by
  induction n with
  | zero => intro _ h; omega
  | succ n ih =>
    intro path hl hM doc hd
    exact by_total hT ⟨obtainsAt_ok n, fun q hq => ih q (by omega)⟩ hM hd

theorem obtainsAt_lines {T : Bytes → Prop} (hT : Stock T) {p doc : Bytes} {vs : List Bytes} (hM : Tamed T (b!".." ++ p)) (hj : JsonLines doc vs)
    (hv : ∀ v ∈ vs, T v) : ∃ r, ObtainsAt ((b!".." ++ p).length + 1) doc (b!".." ++ p) r ∧ Nice T r :=
  by_lines_total hT ⟨obtainsAt_ok _, obtainsAt_total hT _⟩ hM hj hv

/-! ### All JSON values -/

theorem stock_value : Stock IsValue where
  value := id
  elem ha _ v hv := (IsArray.mem_value ha v hv).1
  member ho _ m hm := (IsObject.mem_value ho m hm).2
  number n := (numeral_height n).value
  array {es} hw hv := by
    by_cases h : es = []
    · subst h; exact IsArray.isValue (vs := []) (.inl ⟨[], ws_nil, rfl, rfl⟩)
    · exact IsArray.isValue (.inr ⟨es, h, hw, hv, rfl, rfl⟩)
  object {ms} hw hv := by
    by_cases h : ms = []
    · subst h; exact IsObject.isValue (kvs := []) (.inl ⟨[], ws_nil, rfl, rfl⟩)
    · exact IsObject.isValue (.inr ⟨ms, h, hw, hv, rfl, rfl⟩)

theorem niceDoc_sized {doc : Bytes} (h : NiceDoc IsValue doc) : ∃ n, SizedText n doc := by
  rcases h with rfl | ⟨v, h1, h2⟩
  · exact ⟨0, .inl rfl⟩
  · obtain ⟨d, hd⟩ := denotes_of_value h2
    exact ⟨d.height, .inr ⟨v, h1, d, hd, Nat.le_refl _⟩⟩

theorem nice_sized {n : Nat} {x : Bytes} (h : SizedVal n x) : Nice IsValue x := by
  rcases h with rfl | ⟨v, w, h1, h2, h3⟩
  · exact .inl rfl
  · exact .inr ⟨v, w, h1, h2.value, h3⟩

theorem makesJson_makes {n a : Bytes} (h : MakesJson n a) : Makes IsValue n a := by
  intro doc hd
  obtain ⟨m, hd⟩ := niceDoc_sized hd
  cases h with
  | other hn =>
    obtain ⟨out, x, h1, h2, h3⟩ := kept_of_text (writes_call hn hd)
    exact ⟨out, x, h1, h2, nice_sized h3⟩
  | deep hx ht =>
    obtain ⟨out, x, h1, h2, h3⟩ := kept_of_text (writes_flatten_total hx ht hd)
    exact ⟨out, x, h1, h2, nice_sized h3⟩
  | join hx ht =>
    obtain ⟨out, x, h1, h2, h3⟩ := kept_of_text (writes_join_total hx ht hd)
    exact ⟨out, x, h1, h2, nice_sized h3⟩
  | pretty h1 h2 h3 h4 h5 h6 h7 h8 h9 h10 =>
    obtain ⟨out, x, h1, h2, h3⟩ := writes_pretty_total h1 h2 h3 h4 h5 h6 h7 h8 h9 h10 hd
    exact ⟨out, x, h1, h2, nice_sized h3⟩

theorem harmless_tamed {path : Bytes} (h : Harmless path) : Tamed IsValue path :=
  fun q P n a h1 h2 h3 => makesJson_makes (h q P n a h1 h2 h3)

theorem makesJson_bare {n : Bytes} (h : n ≠ b!"flatten") : MakesJson n [] := by
  have sel : ∀ k, PlainKey k → k ≠ [] → Means [] k [] := fun k h1 h2 => means_key_nil (PlainKey.selector h1 h2)
  have no : Truth [] false := .num (n := 0) (by decide) (by decide) (.other (.inl rfl))
  by_cases h1 : n = b!"pretty"
  · subst h1
    exact .pretty (n := 0) (sel b!"indent" ⟨by decide, by decide⟩ (by decide)) (.inl ⟨rfl, rfl⟩) (by decide)
      (sel b!"prefix" ⟨by decide, by decide⟩ (by decide)) .none ws_nil (sel b!"sortKeys" ⟨by decide, by decide⟩ (by decide)) no
      (sel b!"width" ⟨by decide, by decide⟩ (by decide)) (.inl ⟨rfl, rfl⟩)
  by_cases h2 : n = b!"join"
  · subst h2
    exact .join (sel b!"preserve" ⟨by decide, by decide⟩ (by decide)) no
  exact .other (by simp only [List.mem_cons, List.not_mem_nil, or_false, not_or]; exact ⟨h1, h, h2⟩)

theorem mild_harmless {path : Bytes} (h : Mild path) : Harmless path := by
  intro q P n a hq hc hn
  have hi := (cut_rest hc).2.trans (asked_infix hq)
  generalize P.comp = k at hn hi
  generalize P.arg = j at hn
  cases hn with
  | bare =>
    refine makesJson_bare fun e => ?_
    subst e
    exact h _ (by decide) hi
  | arg =>
    refine .other fun hs => ?_
    simp only [List.mem_cons, List.not_mem_nil, or_false] at hs
    rcases hs with rfl | rfl | rfl
    · exact absurd ((show b!"@pretty:" <:+: _ from ⟨[], a, by simp⟩).trans hi) (h _ (by decide))
    · exact absurd ((show b!"@flatten" <:+: _ from ⟨[], c! ':' :: a, by simp⟩).trans hi) (h _ (by decide))
    · exact absurd ((show b!"@join:" <:+: _ from ⟨[], a, by simp⟩).trans hi) (h _ (by decide))

end Gjson
