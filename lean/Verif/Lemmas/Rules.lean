import Verif.SpecPath
import Verif.Lemmas.PipeAny
import Verif.Lemmas.Shown
import Verif.Lemmas.Find
/-
The code obeys the rules of `Spec.Means` for looking things up. Each rule is a lemma
about the code; they are put together in `Verif.Lemmas.Means`.
-/
namespace Gjson
open Spec

/-- The value has the text `r`; without text it is like the default value. -/
def Fits (w : Value) (r : Bytes) : Prop := w.json = r ∧ (r = [] → SameValue w Value.default)

theorem fits_default : Fits Value.default [] := ⟨rfl, fun _ => SameValue.refl _⟩
theorem fits_of {w : Value} {r : Bytes} (h : w.json = r) (he : w.exists = true) : Fits w r :=
  ⟨h, fun hr => absurd (h.trans hr) (exists_json.1 he)⟩

/-- The result has the text `r`. -/
def Gives (x : Res Value) (r : Bytes) : Prop := ∃ w, x = .ok w ∧ Fits w r

/-- The search found something or not, and what follows gives `r`. -/
def Looks (x : Res (Value × Path)) (r : Bytes) (b : Bool) : Prop := ∃ y, x = .ok y ∧ y.1.exists = b ∧ Gives (finish y) r

theorem Gives.congr {x y : Res Value} {r : Bytes} (h : Gives x r) (hs : SameRes y x) : Gives y r := by
  obtain ⟨w, rfl, h2⟩ := h
  cases hs with
  | ok h => exact ⟨_, rfl, h.json.trans h2.1, fun hr => h.trans (h2.2 hr)⟩

theorem Looks.gives {x : Res (Value × Path)} {r : Bytes} {b : Bool} (h : Looks x r b) : Gives (x >>= finish) r := by
  obtain ⟨y, rfl, _, h3⟩ := h
  exact h3

/-! ### What follows a component -/

def ThenOk (x t r : Bytes) : Prop :=
  (∃ sep rest, Tail sep rest t) ∧ ∀ (u : Value) (p : Path), OneText u → Fits u x → Tail p.sep p.extra t → Gives (finish (u, p)) r

theorem then_done {x : Bytes} : ThenOk x [] x := by
  refine ⟨⟨0, [], rfl, rfl⟩, fun u p _ hj ht => ⟨u, ?_, hj⟩⟩
  unfold finish Path.more
  rw [show p.sep = 0 from ht.1]
  rfl

theorem then_sep {x rest r : Bytes} {c : UInt8} (hc : IsSep c) (h : Gives (get x rest) r) : ThenOk x (c :: rest) r := by
  refine ⟨⟨c, rest, hc, rfl, rfl⟩, fun u p ho hj ht => ?_⟩
  obtain ⟨_, h2, h3⟩ := ht
  unfold finish Path.more
  simp only [h2, h3]
  have : c ≠ 0 := by unfold IsSep at hc; grind
  rw [if_neg (by simp [this])]
  refine h.congr ?_
  rw [← hj.1]
  exact getIn_same ho rest

theorem then_sepOf {x t r : Bytes} (h : ThenOk x t r) (hp : ∀ c ∈ t.head?, c = c! '|') {sep : UInt8} {rest : Bytes}
    (ht : Tail sep rest t) : sep ≠ c! '.' := by
  cases t with
  | nil => rw [ht.1]; decide
  | cons c r =>
    have := hp c (by simp)
    rw [ht.2.1, this]; decide

/-! ### Components -/

theorem spec_query_first (q : Bytes) : b!"#(" ++ (q ++ b!")") = queryComp q false := by unfold queryComp; simp
theorem spec_query_all (q : Bytes) : b!"#(" ++ (q ++ b!")#") = queryComp q true := by unfold queryComp; simp

theorem content_keyIs {kl s : Bytes} (h : Content kl s) : KeyIs kl s := by
  obtain ⟨b, h1, rfl, h3⟩ := h
  exact (keyIs_lit h1).2 (shown_unesc h3).symm

theorem content_unique {kl s s' : Bytes} (h : Content kl s) (h' : KeyIs kl s') : s' = s := by
  obtain ⟨b, h1, rfl, h3⟩ := h
  rw [(keyIs_lit h1).1 h', shown_unesc h3]

theorem content_total {kl : Bytes} (h : StrLit kl) : ∃ s, Content kl s := by
  obtain ⟨b, hb, rfl⟩ := h
  obtain ⟨t, ht⟩ := shown_total hb
  exact ⟨t, b, hb, rfl, ht⟩

/-- How `path_next` reads a component that looks something up, and what it matches. -/
theorem step_next {k : Bytes} (h : Step k) {sep : UInt8} {rest t : Bytes} (ht : Tail sep rest t) :
    ∃ e p, pNext (k ++ t) = ⟨k, e, p, sep, 0, rest⟩ ∧ ∀ s, pKeyMatch s ⟨k, e, p, sep, 0, rest⟩ = true ↔
      if k.head? = some c! '#' then s = k else MatchesE CodeEsc k s := by
  have plain : ∀ {k : Bytes}, k.head? = some c! '#' → ∀ s, pKeyMatch s ⟨k, false, false, sep, 0, rest⟩ = true ↔
      if k.head? = some c! '#' then s = k else MatchesE CodeEsc k s := by
    intro k hk s
    rw [if_pos hk]
    unfold pKeyMatch
    simp
  cases h with
  | selector h =>
    obtain ⟨⟨e, p, hc⟩, hf, hne⟩ := Selector.ord h
    refine ⟨e, p, pNext_comp hc hf ht, fun s => ?_⟩
    rw [if_neg]
    · exact matches_code hc _ _ _ _
    · cases k with
      | nil => simp
      | cons c r => unfold PlainFirst at hf; simpa using hf.2.1
  | hash => exact ⟨false, false, pNext_hashTail ht, plain rfl⟩
  | first h =>
    rw [spec_query_first]
    exact ⟨false, false, pNext_query (queryText_pass h) ht, plain rfl⟩
  | all h =>
    rw [spec_query_all]
    exact ⟨false, false, pNext_query (queryText_pass h) ht, plain rfl⟩

theorem selects_iff {k kl s : Bytes} (hs : KeyIs kl s) (hl : StrLit kl) :
    Selects k kl ↔ if k.head? = some c! '#' then s = k else MatchesE CodeEsc k s := by
  obtain ⟨s', hc⟩ := content_total hl
  have := content_unique hc hs
  subst this
  constructor
  · rintro ⟨s'', h1, h2⟩
    have := content_unique h1 hs
    subst this
    exact h2
  · exact fun h => ⟨_, hc, h⟩

theorem step_looksUp {k : Bytes} (h : Step k) (t : Bytes) : LooksUp (k ++ t) := by
  cases h with
  | selector h =>
    have ho := Selector.ord h
    obtain ⟨c, r, rfl⟩ := List.exists_cons_of_ne_nil ho.2.2
    have hf := ho.2.1
    unfold PlainFirst at hf
    refine looksUp_of (fun d hd => ?_) ?_
    · simp at hd; subst hd; exact ⟨hf.1, hf.2.2⟩
    · rintro ⟨t, ht⟩
      simp only [List.cons_append, List.cons.injEq] at ht
      obtain ⟨⟨e, p, hc⟩, _, _⟩ := ho
      have : Special c → c = c! '\\' ∨ c = c! '*' ∨ c = c! '?' := by
        intro hs
        cases hc with
        | plain h _ => exact absurd hs h
        | wild h _ => exact .inr h
        | esc _ => exact .inl rfl
      have := this (by rw [← ht.1]; decide)
      rw [← ht.1] at this
      revert this; decide
  | hash => exact looksUp_hash _
  | first h => exact looksUp_hash _
  | all h => exact looksUp_hash _

theorem step_tail {k : Bytes} (h : Step k) {sep : UInt8} {rest t : Bytes} (ht : Tail sep rest t) :
    Tail (pNext (k ++ t)).sep (pNext (k ++ t)).extra t := by
  obtain ⟨e, p, h1, _⟩ := step_next h ht
  rw [h1]; exact ht

/-- The search in the value of a member is for paths that go on after a dot without a
modifier or multipath. -/
theorem step_dives {k : Bytes} (h : Step k) {sep : UInt8} {rest t : Bytes} (ht : Tail sep rest t) :
    (pNext (k ++ t)).dives = true ↔ sep = c! '.' ∧ ¬ Calls rest := by
  obtain ⟨e, p, h1, _⟩ := step_next h ht
  rw [h1]
  unfold Path.dives Calls
  simp [and_assoc]

/-! ### Objects -/

def SeeksOk (v path r : Bytes) (b : Bool) : Prop :=
  IsValue v ∧ IsCont v ∧ LooksUp path ∧ ∀ L q, Stop q → Looks (gCont get L (pNext path) (v ++ q)) r b

def WalksOk (k t : Bytes) (es : List Seen) (r : Bytes) (b : Bool) : Prop :=
  (∃ sep rest, Tail sep rest t) ∧
  ∀ L s, Meets (diveOf L (pNext (k ++ t))) L (pNext (k ++ t)) s es →
    Looks (gObjLoop (diveOf L (pNext (k ++ t))) L (pNext (k ++ t)) s) r b

theorem looks_none {k t r : Bytes} (hk : Step k) (h : ThenOk [] t r) :
    Looks (.ok (Value.default, pNext (k ++ t))) r false := by
  obtain ⟨⟨sep, rest, ht⟩, h⟩ := h
  exact ⟨_, rfl, rfl, h _ _ default_oneText fits_default (step_tail hk ht)⟩

theorem walks_nil {k t r : Bytes} (hk : Step k) (h : ThenOk [] t r) : WalksOk k t [] r false := by
  refine ⟨h.1, fun L s hm => ?_⟩
  cases hm with
  | nil e => rw [e]; exact looks_none hk h

theorem walks_stop {k t r : Bytes} {es : List Seen} (hk : Step k) (h : ThenOk [] t r) : WalksOk k t (.stop :: es) r false := by
  refine ⟨h.1, fun L s hm => ?_⟩
  cases hm with
  | stop e => rw [e]; exact looks_none hk h

open Classical in
/-- The loop of `get_obj` at one member. -/
theorem rule_member {k t r : Bytes} {m : Member} (hk : Step k) (htl : ∃ sep rest, Tail sep rest t) (L : Nat) (hw : m.Wf)
    (hv : IsValue m.val) (hr : Stop r) :
    ∃ i, gObjLoop (diveOf L (pNext (k ++ t))) L (pNext (k ++ t)) (m.text ++ r) =
      if Selects k m.key then
        if (∃ rest, t = c! '.' :: rest ∧ ¬ Calls rest) ∧ IsCont m.val then do
          let (res, p) ← diveOf L (pNext (k ++ t)) (m.val ++ (m.post ++ r))
          if res.exists then .ok (res, p) else
            gObjLoop (diveOf L (pNext (k ++ t))) L (pNext (k ++ t)) (m.val ++ (m.post ++ r))
        else .ok (leafVal (some i) m.val, pNext (k ++ t))
      else gObjLoop (diveOf L (pNext (k ++ t))) L (pNext (k ++ t)) r := by
  obtain ⟨sep, rest, ht⟩ := htl
  obtain ⟨s, hs, _⟩ := keyIs_total hw.2.1
  obtain ⟨i, e⟩ := gObjLoop_member (diveOf L (pNext (k ++ t))) L (pNext (k ++ t)) hw hv hr.follow hs
  refine ⟨i, e.trans ?_⟩
  obtain ⟨e', p, h1, h2⟩ := step_next hk ht
  have hsel : pKeyMatch s (pNext (k ++ t)) = true ↔ Selects k m.key := by
    rw [h1, h2, selects_iff hs hw.2.1]
  have hdv : (pNext (k ++ t)).dives = true ↔ ∃ rest, t = c! '.' :: rest ∧ ¬ Calls rest := by
    rw [step_dives hk ht]
    cases t with
    | nil =>
      rw [ht.1]
      constructor
      · rintro ⟨h, _⟩; exact absurd h (by decide)
      · rintro ⟨_, h, _⟩; simp at h
    | cons c rest' =>
      obtain ⟨_, h3, h4⟩ := ht
      rw [h3, h4]
      constructor
      · rintro ⟨rfl, h⟩; exact ⟨_, rfl, h⟩
      · rintro ⟨_, h, h'⟩; cases h; exact ⟨rfl, h'⟩
  simp only [hsel, hdv]

theorem walks_skip {k t kl x r : Bytes} {es : List Seen} {b : Bool} (hk : Step k) (hn : ¬ Selects k kl) (h : WalksOk k t es r b) :
    WalksOk k t (.member kl x :: es) r b := by
  refine ⟨h.1, fun L s hm => ?_⟩
  cases hm with
  | member m1 m2 m3 m4 m5 =>
    obtain ⟨i, e⟩ := rule_member hk h.1 L m1 m2 m3
    rw [m4, e, if_neg hn]
    exact h.2 L _ m5

theorem leafVal_one (i : Option Nat) (v : Bytes) : OneText (leafVal i v) := by right; unfold leafVal mkVal; split <;> rfl

theorem walks_hit {k t kl x r : Bytes} {es : List Seen} (hk : Step k) (hs : Selects k kl)
    (hx : (kindOf x ≠ .object ∧ kindOf x ≠ .array) ∨ (∀ rest, t = c! '.' :: rest → ∃ c ∈ rest.head?, c ∈ b!"@{["))
    (h : ThenOk x t r) : WalksOk k t (.member kl x :: es) r true := by
  refine ⟨h.1, fun L s hm => ?_⟩
  cases hm with
  | member m1 m2 m3 m4 m5 =>
    obtain ⟨i, e⟩ := rule_member hk h.1 L m1 m2 m3
    rw [m4, e, if_pos hs, if_neg]
    · obtain ⟨sep, rest, ht⟩ := h.1
      exact ⟨_, rfl, sameAsText_exists (leaf_sameAsText m2 _) (isValue_ne_nil m2), h.2 _ _ (leafVal_one _ _) (fits_of (leafVal_json _ _) (sameAsText_exists (leaf_sameAsText m2 _) (isValue_ne_nil m2))) (step_tail hk ht)⟩
    · rintro ⟨⟨rest, h1, h2⟩, h3⟩
      rcases hx with hx | hx
      · exact hx.1 (h3.resolve_right hx.2)
      · obtain ⟨c, hc1, hc2⟩ := hx rest h1
        refine h2 ?_
        cases rest with
        | nil => simp at hc1
        | cons d rest =>
          simp at hc1
          subst hc1
          exact calls_of (by simpa using hc2)

theorem LooksUp.notCalls {path : Bytes} (h : LooksUp path) : ¬ Calls path := by
  unfold Calls
  rw [h.2.1, h.2.2]
  simp

theorem diveOf_dot {k rest : Bytes} (hk : Step k) (hl : LooksUp rest) (L : Nat) (v : Bytes) :
    diveOf L (pNext (k ++ c! '.' :: rest)) v = gCont get L (pNext rest) v := by
  have ht : Tail (c! '.') rest (c! '.' :: rest) := ⟨.inl rfl, rfl, rfl⟩
  unfold diveOf
  rw [if_pos ((step_dives hk ht).2 ⟨rfl, hl.notCalls⟩)]
  obtain ⟨e, p, h1, _⟩ := step_next hk ht
  rw [h1]

theorem walks_into {k rest kl x r : Bytes} {es : List Seen} (hk : Step k) (hs : Selects k kl) (h : SeeksOk x rest r true) :
    WalksOk k (c! '.' :: rest) (.member kl x :: es) r true := by
  have ht : Tail (c! '.') rest (c! '.' :: rest) := ⟨.inl rfl, rfl, rfl⟩
  refine ⟨⟨_, _, ht⟩, fun L s hm => ?_⟩
  obtain ⟨h1, h2, h3, h4⟩ := h
  cases hm with
  | member m1 m2 m3 m4 m5 =>
    obtain ⟨i, e⟩ := rule_member (t := c! '.' :: rest) hk ⟨_, _, ht⟩ L m1 m2 m3
    rw [m4, e, if_pos hs, if_pos ⟨⟨rest, rfl, h3.notCalls⟩, h2⟩, diveOf_dot hk h3]
    obtain ⟨⟨u, p⟩, y1, y2, y3⟩ := h4 L _ (m3.ws m1.2.2.2.2)
    rw [y1]
    simp only [ok_bind]
    rw [if_pos y2]
    exact ⟨_, rfl, y2, y3⟩

theorem walks_again {k rest kl x r' r : Bytes} {es es' : List Seen} {b : Bool} (hk : Step k) (hs : Selects k kl)
    (h : SeeksOk x rest r' false) (hmet : Spec.Met [x] es') (hw : WalksOk k (c! '.' :: rest) (es' ++ es) r b) :
    WalksOk k (c! '.' :: rest) (.member kl x :: es) r b := by
  have ht : Tail (c! '.') rest (c! '.' :: rest) := ⟨.inl rfl, rfl, rfl⟩
  refine ⟨⟨_, _, ht⟩, fun L s hm => ?_⟩
  obtain ⟨h1, h2, h3, h4⟩ := h
  cases hm with
  | member m1 m2 m3 m4 m5 =>
    rename_i rr m
    obtain ⟨i, e⟩ := rule_member (t := c! '.' :: rest) hk ⟨_, _, ht⟩ L m1 m2 m3
    rw [m4, e, if_pos hs, if_pos ⟨⟨rest, rfl, h3.notCalls⟩, h2⟩, diveOf_dot hk h3]
    obtain ⟨⟨u, p⟩, y1, y2, y3⟩ := h4 L _ (m3.ws m1.2.2.2.2)
    rw [y1]
    simp only [ok_bind]
    rw [if_neg (by rw [y2]; simp)]
    refine hw.2 L _ (met_ent hmet (q := m.post ++ rr) (.cons m2 rfl (m3.ws m1.2.2.2.2) (.nil rfl)) ?_)
    exact m5.congr (gObjLoop_ws _ _ _ m1.2.2.2.2)

theorem seeks_obj {v k t r : Bytes} {kvs : List (Bytes × Bytes)} {b : Bool} (ho : IsObject v kvs) (hk : Step k)
    (h : WalksOk k t (kvs.map fun m => .member m.1 m.2) r b) : SeeksOk v (k ++ t) r b := by
  obtain ⟨⟨sep, rest, ht⟩, h⟩ := h
  refine ⟨IsObject.isValue ho, IsObject.isCont ho, step_looksUp hk t, fun L q _ => ?_⟩
  obtain ⟨ms, a1, a2, a3, _, a5⟩ := gCont_obj get L (pNext (k ++ t)) (q := q) ho
  rw [a5]
  have he := ent_members (d := diveOf L (pNext (k ++ t))) (L := L) (p := pNext (k ++ t)) (q := q) (es := []) a1 a2
    (.nil (gObjLoop_close _ _ _ _))
  rw [a3, List.append_nil] at he
  exact h L _ he

/-! ### Arrays -/

/-- The values of an array or of JSON Lines as the code goes through them. -/
structure Vals (vals : List Value) (vs : List Bytes) : Prop where
  same : Aligned SameAsText vals vs
  exist : ∀ v ∈ vals, v.exists = true ∧ v.json = v.slice
  one : ∀ v ∈ vals, OneText v

def RowsOk (vs : List Bytes) (path r : Bytes) (b : Bool) : Prop :=
  LooksUp path ∧ ∀ vals, Vals vals vs → Looks (gArrVals get (pNext path) vals) r b

theorem seeks_arr {v path r : Bytes} {vs : List Bytes} {b : Bool} (ha : IsArray v vs) (h : RowsOk vs path r b) :
    SeeksOk v path r b := by
  refine ⟨IsArray.isValue ha, IsArray.isCont ha, h.1, fun L q _ => ?_⟩
  rw [gCont_arr get L _ ha]
  exact h.2 _ ⟨array_toks ha q _, eachToks_exist _ _ _, fun v hv => (eachToks_prov _ _ _ v hv).oneText⟩

theorem selector_next {k : Bytes} (h : Selector k) {sep : UInt8} {rest t : Bytes} (ht : Tail sep rest t) :
    ∃ e p, pNext (k ++ t) = ⟨k, e, p, sep, 0, rest⟩ := by
  obtain ⟨e, p, h1, _⟩ := step_next (.selector h) ht
  exact ⟨e, p, h1⟩

theorem rows_elem {vs : List Bytes} {k t e r : Bytes} {n : Nat} (hk : Selector k) (hi : IndexText k n) (hn : n < 2 ^ 63)
    (he : vs[n]? = some e) (h : ThenOk e t r) : RowsOk vs (k ++ t) r true := by
  obtain ⟨⟨sep, rest, ht⟩, h⟩ := h
  refine ⟨step_looksUp (.selector hk) t, fun vals hv => ?_⟩
  obtain ⟨e', p, h1⟩ := selector_next hk ht
  obtain ⟨a, a1, a2⟩ := aligned_get hv.same he
  have hm := List.mem_of_getElem? a1
  rw [h1, array_element (Selector.ord hk).2.1 _ _ _ _ hi hn, List.getD_eq_getElem?_getD, a1]
  exact ⟨_, rfl, (hv.exist a hm).1, h a _ (hv.one a hm) (fits_of a2.1 (hv.exist a hm).1) ht⟩

theorem rows_beyond {vs : List Bytes} {k t r : Bytes} (hk : Selector k) (hi : ∀ n, IndexText k n → n < 2 ^ 63 → vs[n]? = none)
    (h : ThenOk [] t r) : RowsOk vs (k ++ t) r false := by
  obtain ⟨⟨sep, rest, ht⟩, h⟩ := h
  refine ⟨step_looksUp (.selector hk) t, fun vals hv => ?_⟩
  obtain ⟨e', p, h1⟩ := selector_next hk ht
  have al := aligned_length hv.same
  rw [h1, array_beyond (Selector.ord hk).2.1 _ _ _ _ (by
    intro n h1 h2
    have := hi n h1 h2
    rw [List.getElem?_eq_none_iff] at this ⊢
    omega)]
  exact ⟨_, rfl, rfl, h _ _ default_oneText fits_default ht⟩

theorem numeral_ne (n : Nat) : numeral n ≠ [] := by
  intro h
  have := (numeral_spec n).1
  rw [h] at this
  simp at this

theorem rows_count {vs : List Bytes} {t r : Bytes} (hp : ∀ c ∈ t.head?, c = c! '|') (h : ThenOk (numeral vs.length) t r) :
    RowsOk vs (b!"#" ++ t) r true := by
  obtain ⟨sep, rest, ht⟩ := h.1
  have hs := then_sepOf h hp ht
  refine ⟨looksUp_hash _, fun vals hv => ?_⟩
  have hn := pNext_hashTail ht
  have e : b!"#" ++ t = c! '#' :: t := rfl
  rw [e, hn]
  unfold gArrVals
  simp only [if_true]
  rw [if_neg hs, aligned_length hv.same, natDec_eq]
  have he : (mkOwned (numeral vs.length) none INFO_NUMBER).exists = true := by rw [mkOwned_exists]; simp [numeral_ne]
  exact ⟨_, rfl, he, h.2 _ _ (mkOwned_oneText _ _ _) (fits_of (mkOwned_json _ _ _) he) ht⟩

/-- The results on the elements, and the texts of those that exist. -/
theorem results_means {path : Bytes} {f : Bytes → Bytes} : ∀ {vs : List Bytes}, (∀ v ∈ vs, Gives (get v path) (f v)) →
    ∃ ws, Results path vs ws ∧ existing ws = (vs.map f).filter fun x => x ≠ []
  | [], _ => ⟨[], .nil, rfl⟩
  | v :: vs, h => by
    obtain ⟨w, h1, h2, _⟩ := h v (by simp)
    obtain ⟨ws, h3, h4⟩ := results_means fun x hx => h x (List.mem_cons_of_mem _ hx)
    refine ⟨w :: ws, .cons h1 h3, ?_⟩
    have he := exists_json (v := w)
    unfold existing at h4 ⊢
    rw [List.map_cons, List.filter_cons, List.filter_cons, ← h4, ← h2]
    by_cases hw : w.exists = true
    · rw [if_pos hw, if_pos (by simpa using he.1 hw)]; rfl
    · rw [if_neg hw, if_neg (by simpa using fun hh => hw (he.2 hh))]

theorem rows_map {vs ks : List Bytes} {t r : Bytes} {f : Bytes → Bytes} (ho : ∀ k ∈ ks, Part k) (hne : ks ≠ [])
    (hp : ∀ c ∈ t.head?, c = c! '|') (hf : ∀ v ∈ vs, Gives (get v (dotPath ks)) (f v))
    (h : ThenOk (arrayText ((vs.map f).filter fun x => x ≠ [])) t r) : RowsOk vs (b!"#." ++ (dotPath ks ++ t)) r true := by
  obtain ⟨sep, rest, ht⟩ := h.1
  have hs := then_sepOf h hp ht
  refine ⟨looksUp_hash _, fun vals hv => ?_⟩
  have hnx : pNext (b!"#." ++ (dotPath ks ++ t)) = ⟨[c! '#'], false, false, c! '.', 0, dotPath ks ++ t⟩ :=
    pNext_hashTail ⟨.inl rfl, rfl, rfl⟩
  rw [hnx]
  obtain ⟨g1, g2, g3⟩ := pGroup_whole ht hs (fun k hk => whole_part (ho k hk)) hne
    (p := ⟨[c! '#'], false, false, c! '.', 0, dotPath ks ++ t⟩) rfl rfl
  obtain ⟨ws, w1, w2⟩ := results_means hf
  obtain ⟨l, l1, l2⟩ := collect_map hv.same w1 hv.exist
  unfold gArrVals
  simp only [if_true]
  rw [g1, l1]
  simp only [ok_bind]
  refine ⟨_, rfl, arrayOf_exists _, h.2 _ _ (mkOwned_oneText _ _ _) (fits_of ?_ (arrayOf_exists _)) (by rw [g2, g3]; exact ht)⟩
  unfold arrayOf arrayText
  rw [mkOwned_json, l2, w2, joinComma_eq]

/-- The answer of a query for a text that `parse` keeps as it is. -/
def TestOk (lh : Bytes) (op : Option Op) (rh e : Bytes) (b : Bool) : Prop :=
  (∃ w, parse e = .ok w ∧ w.json = e ∧ w.exists = true) → ElemTest lh (opName op) rh e b

theorem Vals.whole {vals : List Value} {vs : List Bytes} (h : Vals vals vs) : ∀ e ∈ vs, ∃ w, parse e = .ok w ∧ w.json = e ∧ w.exists = true := by
  intro e he
  obtain ⟨a, a1, a2⟩ := List.mem_iff_getElem.1 he
  obtain ⟨x, x1, x2⟩ := aligned_get h.same (List.getElem?_eq_some_iff.2 ⟨a1, a2⟩)
  obtain ⟨w, w1, w2⟩ := x2.2.2
  have hx := (h.exist x (List.mem_of_getElem? x1)).1
  refine ⟨w, w1, w2.json.symm.trans x2.1, ?_⟩
  rw [exists_json] at hx ⊢
  rwa [← w2.json]

section
variable {vs : List Bytes} {q lh rh t r : Bytes} {op : Option Op} {test : Bytes → Bool}

theorem rows_first_aux (hq : QueryText q lh op rh) (ht : ∀ v ∈ vs, ElemTest lh (opName op) rh v (test v))
    {sep : UInt8} {rest : Bytes} (htl : Tail sep rest t) {vals : List Value} (hv : Vals vals vs) :
    ∃ w, gArrVals get (pNext (b!"#(" ++ (q ++ b!")") ++ t)) vals = .ok (w, ⟨queryComp q false, false, false, sep, 0, rest⟩) ∧
      OneText w ∧ match vs.find? test with | some e => SameAsText w e ∧ w.exists = true | none => w = Value.default := by
  obtain ⟨w, w1, w2⟩ := find_kept hv.same ht hv.exist
  have hn := pNext_query (queryText_pass hq) (all := false) htl
  have hp := parts_eq hq (p := ⟨queryComp q false, false, false, sep, 0, rest⟩) (all := false) rfl
  obtain ⟨t', e1, e2, e3⟩ := queryComp_cons q false
  refine ⟨w, ?_, ?_, ?_⟩
  · rw [spec_query_first, hn, gArrVals_first get vals e1 e2 (by rw [e3]; decide), hp, w1]
    rfl
  · rcases findR_exists w1 with h | h
    · exact hv.one w h
    · rw [h]; exact default_oneText
  · revert w2
    cases hf : vs.find? test with
    | none => exact fun h => h
    | some e =>
      intro w2
      refine ⟨w2, ?_⟩
      rcases findR_exists w1 with h | h
      · exact (hv.exist w h).1
      · obtain ⟨a, a1, a2⟩ := List.mem_iff_getElem.1 (List.mem_of_find?_eq_some hf)
        obtain ⟨x, x1, x2⟩ := aligned_get hv.same (List.getElem?_eq_some_iff.2 ⟨a1, a2⟩)
        refine sameAsText_exists w2 ?_
        rw [← x2.1]
        exact exists_json.1 (hv.exist x (List.mem_of_getElem? x1)).1

theorem rows_first {e : Bytes} (hq : QueryText q lh op rh) (htest : ∀ v ∈ vs, TestOk lh op rh v (test v))
    (hf : vs.find? test = some e) (h : ThenOk e t r) : RowsOk vs (b!"#(" ++ (q ++ b!")") ++ t) r true := by
  obtain ⟨sep, rest, htl⟩ := h.1
  refine ⟨looksUp_hash _, fun vals hv => ?_⟩
  have ht : ∀ v ∈ vs, ElemTest lh (opName op) rh v (test v) := fun v hm => htest v hm (hv.whole v hm)
  obtain ⟨w, w1, w2, w3⟩ := rows_first_aux hq ht htl hv
  rw [hf] at w3
  rw [w1]
  exact ⟨_, rfl, w3.2, h.2 _ _ w2 (fits_of w3.1.1 w3.2) htl⟩

theorem rows_firstNone (hq : QueryText q lh op rh) (htest : ∀ v ∈ vs, TestOk lh op rh v (test v))
    (hf : vs.find? test = none) (h : ThenOk [] t r) : RowsOk vs (b!"#(" ++ (q ++ b!")") ++ t) r false := by
  obtain ⟨sep, rest, htl⟩ := h.1
  refine ⟨looksUp_hash _, fun vals hv => ?_⟩
  have ht : ∀ v ∈ vs, ElemTest lh (opName op) rh v (test v) := fun v hm => htest v hm (hv.whole v hm)
  obtain ⟨w, w1, w2, w3⟩ := rows_first_aux hq ht htl hv
  rw [hf] at w3
  rw [w1, w3]
  exact ⟨_, rfl, rfl, h.2 _ _ default_oneText fits_default htl⟩

theorem rows_all (hq : QueryText q lh op rh) (htest : ∀ v ∈ vs, TestOk lh op rh v (test v))
    (hp : ∀ c ∈ t.head?, c = c! '|') (h : ThenOk (arrayText (vs.filter test)) t r) :
    RowsOk vs (b!"#(" ++ (q ++ b!")#") ++ t) r true := by
  obtain ⟨sep, rest, htl⟩ := h.1
  have hs := then_sepOf h hp htl
  refine ⟨looksUp_hash _, fun vals hv => ?_⟩
  have ht : ∀ v ∈ vs, ElemTest lh (opName op) rh v (test v) := fun v hm => htest v hm (hv.whole v hm)
  have hn := pNext_query (queryText_pass hq) (all := true) htl
  have hpt := parts_eq hq (p := ⟨queryComp q true, false, false, sep, 0, rest⟩) (all := true) rfl
  have hc := collect_kept (f := .ok) hv.same ht hv.exist
  simp only [ok_bind] at hc
  obtain ⟨t', e1, e2, e3⟩ := queryComp_cons q true
  have hid := collect_id ((vals.zip vs).filterMap (fun x => if test x.2 then some x.1 else none))
  simp only [ok_bind] at hid
  rw [spec_query_all, hn, gArrVals_all get vals e1 e2 e3, hpt, pGroup_no _ hs]
  simp only [if_neg hs]
  rw [hc, hid]
  simp only [ok_bind]
  refine ⟨_, rfl, arrayOf_exists _, h.2 _ _ (mkOwned_oneText _ _ _) (fits_of ?_ (arrayOf_exists _)) htl⟩
  unfold arrayOf arrayText
  rw [mkOwned_json, existing_aligned (kept_aligned hv.same) (kept_exist hv.exist), joinComma_eq]

theorem rows_allMap {ks : List Bytes} {f : Bytes → Bytes} (hq : QueryText q lh op rh)
    (htest : ∀ v ∈ vs, TestOk lh op rh v (test v)) (ho : ∀ k ∈ ks, Part k) (hne : ks ≠ [])
    (hp : ∀ c ∈ t.head?, c = c! '|') (hf : ∀ v ∈ vs.filter test, Gives (get v (dotPath ks)) (f v))
    (h : ThenOk (arrayText (((vs.filter test).map f).filter fun x => x ≠ [])) t r) :
    RowsOk vs (b!"#(" ++ (q ++ b!")#") ++ c! '.' :: (dotPath ks ++ t)) r true := by
  obtain ⟨sep, rest, htl⟩ := h.1
  have hs := then_sepOf h hp htl
  refine ⟨looksUp_hash _, fun vals hv => ?_⟩
  have ht : ∀ v ∈ vs, ElemTest lh (opName op) rh v (test v) := fun v hm => htest v hm (hv.whole v hm)
  have hn := pNext_query (queryText_pass hq) (all := true) (sep := c! '.') (rest := dotPath ks ++ t)
    (t := c! '.' :: (dotPath ks ++ t)) ⟨.inl rfl, rfl, rfl⟩
  have hpt := parts_eq hq (p := ⟨queryComp q true, false, false, c! '.', 0, dotPath ks ++ t⟩) (all := true) rfl
  obtain ⟨g1, g2, g3⟩ := pGroup_whole htl hs (fun k hk => whole_part (ho k hk)) hne
    (p := ⟨queryComp q true, false, false, c! '.', 0, dotPath ks ++ t⟩) rfl rfl
  have hc := collect_kept (f := fun v => getIn get v (dotPath ks)) hv.same ht hv.exist
  obtain ⟨ws, w1, w2⟩ := results_means hf
  obtain ⟨l, l1, l2⟩ := collect_map (kept_aligned (test := test) hv.same) w1 (kept_exist hv.exist)
  obtain ⟨t', e1, e2, e3⟩ := queryComp_cons q true
  rw [spec_query_all, hn, gArrVals_all get vals e1 e2 e3, hpt, g1]
  simp only [if_true]
  rw [hc, l1]
  simp only [ok_bind]
  refine ⟨_, rfl, arrayOf_exists _, h.2 _ _ (mkOwned_oneText _ _ _) (fits_of ?_ (arrayOf_exists _)) (by rw [g2, g3]; exact htl)⟩
  unfold arrayOf arrayText
  rw [mkOwned_json, l2, w2, joinComma_eq]

end

/-! ### Documents -/

theorem means_look {doc v path r : Bytes} {b : Bool} (hp : Padded v doc) (h : SeeksOk v path r b) : Gives (get doc path) r := by
  obtain ⟨w1, w2, u1, u2, rfl⟩ := hp
  obtain ⟨h1, h2, h3, h4⟩ := h
  rw [get_looksUp h3, gStart_ws _ _ _ u1, gStart_cont _ _ _ h2]
  exact (h4 _ _ (.ws' u2)).gives

theorem means_empty {k t r : Bytes} (hk : Step k) (h : ThenOk [] t r) : Gives (get [] (k ++ t)) r := by
  obtain ⟨sep, rest, ht⟩ := h.1
  rw [get_looksUp (step_looksUp hk t)]
  exact (looks_none hk h).gives

theorem means_scalar {doc v k t r : Bytes} (hv : IsValue v) (hp : Padded v doc) (h1 : kindOf v ≠ .object) (h2 : kindOf v ≠ .array)
    (hk : Step k) (h : ThenOk [] t r) : Gives (get doc (k ++ t)) r := by
  obtain ⟨sep, rest, ht⟩ := h.1
  have hc : ¬ IsCont v := by unfold IsCont; rw [not_or]; exact ⟨h1, h2⟩
  obtain ⟨w1, w2, u1, u2, rfl⟩ := hp
  rw [get_looksUp (step_looksUp hk t), gStart_ws _ _ _ u1, gStart_noCont _ _ _ (noCont_scalar hv hc w2)]
  exact (looks_none hk h).gives

theorem means_lines {doc path r : Bytes} {vs : List Bytes} {b : Bool} (hj : JsonLines doc vs) (h : RowsOk vs path r b) :
    Gives (get doc (b!".." ++ path)) r := by
  rw [get_lines]
  unfold gArr
  exact (h.2 _ ⟨by unfold eachToks; exact jsonLines_toks hj _, eachToks_exist _ _ _,
    fun v hv => (eachToks_prov _ _ _ v hv).oneText⟩).gives

end Gjson
