import Verif.Lemmas.Usable
import Verif.Lemmas.PrettyHead
/-
`get` never runs out of fuel and never reads out of bounds, and it panics only
for paths that use `@pretty` with a prefix inside a query.
-/
namespace Gjson
open Spec (AsksPrefix PrefixInQuery)

/-- A computation that succeeds, or panics in a case described by `B`. -/
def Fine {α : Type} (B : Prop) (r : Res α) : Prop := (∃ v, r = .ok v) ∨ (r = .error .panic ∧ B)

theorem Fine.ok {α : Type} {B : Prop} (v : α) : Fine B (.ok v) := .inl ⟨v, rfl⟩

theorem Fine.of {α : Type} {B : Prop} {r : Res α} (h : ∃ v, r = .ok v) : Fine B r := .inl h

theorem Fine.bind {α β : Type} {B : Prop} {r : Res α} {f : α → Res β} (h : Fine B r)
    (hf : ∀ v, r = .ok v → Fine B (f v)) : Fine B (r >>= f) := by
  rcases h with ⟨v, h⟩ | ⟨h, hB⟩
  · rw [h]; exact hf v h
  · rw [h]; exact .inr ⟨rfl, hB⟩

theorem Fine.mono {α : Type} {B C : Prop} {r : Res α} (h : Fine B r) (hBC : B → C) : Fine C r :=
  h.imp id (fun h => ⟨h.1, hBC h.2⟩)

/-! ### The remaining path is a piece of the path -/

/-- Everything a search along `p` passes to `get` is a piece of `q`. -/
structure Within (q : Bytes) (p : Path) : Prop where
  comp : p.comp <:+: q
  extra : p.extra <:+: q

theorem PathOk.within {extra q : Bytes} {p : Path} (h : PathOk extra p) (hq : extra <:+: q) : Within q p :=
  ⟨h.comp.isInfix.trans hq, h.rest.isInfix.trans hq⟩

theorem Within.next {q : Bytes} {p : Path} (h : Within q p) : Within q (pNext p.extra) :=
  (pNext_ok _).within h.extra

theorem Within.empty (q : Bytes) : Within q Path.empty := ⟨List.nil_infix, List.nil_infix⟩

theorem gArr_within {q : Bytes} {rec : GetFn} {path : Path} (hp : Within q path) {L : Nat} {lines : Bool} {s : Bytes}
    {v : Value} {p : Path} (h : gArr rec L lines path s = .ok (v, p)) : p.extra <:+: q := by
  rcases gArrVals_path h with rfl | ⟨hs, rfl⟩
  · exact hp.extra
  · exact (pGroup_ok path hs).rest.isInfix.trans hp.extra

theorem gObj_within {q : Bytes} {rec : GetFn} {L : Nat} : ∀ (k : Nat) {path : Path}, pathRank path < k → Within q path →
    ∀ {s : Bytes} {x : Value × Path}, gObj rec L path s = .ok x → x.2.extra <:+: q
  | 0, _, h, _, _, _, _ => by omega
  | k + 1, path, hk, hp, s, x, h => by
    rw [gObj.eq_def] at h
    cases s with
    | nil => simp at h; rw [← h]; exact hp.extra
    | cons c r =>
      simp only at h
      split at h
      · simp at h; rw [← h]; exact hp.extra
      · refine gObjLoop_ind' (P := fun x => x.2.extra <:+: q) hp.extra (fun _ _ _ => hp.extra) ?_ r x h
        intro v y hy hd
        rw [dif_pos hd] at hy
        have := pathRank_next hd
        split at hy
        · exact gObj_within k (by omega) hp.next hy
        · obtain ⟨v', p'⟩ := y
          exact gArr_within hp.next hy

theorem gStart_within {q : Bytes} {rec : GetFn} {L : Nat} {path : Path} (hp : Within q path) :
    ∀ {s : Bytes} {x : Value × Path}, gStart rec L path s = .ok x → x.2.extra <:+: q
  | [], x, h => by simp [gStart] at h; rw [← h]; exact hp.extra
  | c :: r, x, h => by
    unfold gStart at h
    split at h
    · exact gStart_within hp h
    split at h
    · exact gObj_within _ (Nat.lt_succ_self _) hp h
    split at h
    · obtain ⟨v, p⟩ := x; exact gArr_within hp h
    · simp at h; rw [← h]; exact hp.extra

theorem getFirst_within {rec : GetFn} {json path : Bytes} {x : Value × Path}
    (h : getFirst rec json path = .ok x) : x.2.extra <:+: path := by
  rw [getFirst_eq] at h
  simp only at h
  have hs : Within path (pNext (linesPrefix path).1) := (pNext_ok _).within (linesPrefix_suffix path).isInfix
  split at h
  · obtain ⟨v, p⟩ := x; exact gArr_within hs h
  split at h
  · rw [modExec_path h]; exact hs.extra
  split at h
  · rcases multiExec_path h with h1 | h1
    · rw [h1]; exact hs.extra
    · rw [h1]; exact List.nil_infix
  · exact gStart_within hs h

/-! ### Without @pretty results are clean -/

theorem multiExec_clean {rec : GetFn} {json : Bytes} {path : Path} {x : Value × Path}
    (h : multiExec rec json path = .ok x) : Clean x.1 := by
  unfold multiExec at h
  obtain ⟨a, _, h⟩ := bind_eq_ok.1 h
  split at h
  · unfold execArr at h
    obtain ⟨b, _, h⟩ := bind_eq_ok.1 h
    split at h
    · cases h; exact .default
    · obtain ⟨⟨out, n⟩, h1, h2⟩ := bind_eq_ok.1 h
      have := eachComp_ind (P := fun st : Bytes × Nat => ∃ q, st.1 = c! '[' :: q) (by
        rintro st k p st' ⟨q, hq⟩ hf
        obtain ⟨res, _, hf⟩ := bind_eq_ok.1 hf
        cases hf
        unfold pushValue
        split
        · split <;> (simp only [hq, List.cons_append]; exact ⟨_, rfl⟩)
        · exact ⟨q, hq⟩) ⟨[], rfl⟩ h1
      obtain ⟨q, hq⟩ := this
      simp only at hq h2
      rw [jsonFromOwned_eq, hq] at h2
      cases h2
      exact .array _
  · unfold execObj at h
    obtain ⟨b, _, h⟩ := bind_eq_ok.1 h
    split at h
    · cases h; exact .default
    · obtain ⟨⟨out, n⟩, h1, h2⟩ := bind_eq_ok.1 h
      have := eachComp_ind (P := fun st : Bytes × Nat => ∃ q, st.1 = c! '{' :: q) (by
        rintro st k p st' ⟨q, hq⟩ hf
        obtain ⟨res, _, hf⟩ := bind_eq_ok.1 hf
        cases hf
        unfold pushMember
        split
        · split <;> (simp only [hq, List.cons_append]; exact ⟨_, rfl⟩)
        · exact ⟨q, hq⟩) ⟨[], rfl⟩ h1
      obtain ⟨q, hq⟩ := this
      simp only at hq h2
      rw [jsonFromOwned_eq, hq] at h2
      cases h2
      exact .object _

/-- The name and the argument of a modifier. -/
def modName (path : Path) : Bytes := if path.marg = 0 then path.comp.drop 1 else sub path.comp 1 path.marg
def modArg (path : Path) : Bytes := if path.marg = 0 then [] else path.comp.drop (path.marg + 1)

theorem isModifier_head {p : Path} (h : p.isModifier = true) : ∃ r, p.comp = c! '@' :: r := by
  unfold Path.isModifier at h
  cases hc : p.comp with
  | nil => simp [hc] at h
  | cons c r => simp [hc] at h; exact ⟨r, by rw [h]⟩

/-- `exec` runs the modifier and parses its output. -/
theorem modExec_eq {extra : Bytes} {p : Path} (hp : PathOk extra p) (hm : p.isModifier = true) (rec : GetFn) (json : Bytes) :
    modExec rec json p = (modApply rec (modName p) json (modArg p) >>= fun out => .ok (jsonIntoOwned (pParse 0 out), p)) := by
  obtain ⟨r, hr⟩ := isModifier_head hm
  unfold modExec modName modArg
  simp only [parse_eq]
  have h1 : p.comp.length = r.length + 1 := by rw [hr]; rfl
  by_cases h0 : p.marg = 0
  · rw [if_pos h0, if_pos h0, if_pos h0, (At.mk' (by omega : 1 ≤ p.comp.length)).sliceFrom]
    rfl
  · have h2 := hp.marg h0
    rw [if_neg h0, if_neg h0, if_neg h0, slice_ok (by omega) (by omega),
      (At.mk' (by omega : p.marg + 1 ≤ p.comp.length)).sliceFrom]
    rfl

theorem modName_infix {p : Path} (hm : p.isModifier = true) : c! '@' :: modName p <:+: p.comp := by
  obtain ⟨r, hr⟩ := isModifier_head hm
  unfold modName
  rw [hr]
  split
  · exact List.infix_refl _
  · unfold sub
    simp only [List.drop_succ_cons, List.drop_zero]
    exact ((List.cons_prefix_cons).2 ⟨rfl, List.take_prefix _ _⟩).isInfix

theorem modArg_infix {p : Path} {extra : Bytes} (hp : PathOk extra p) (hm : p.isModifier = true) :
    modArg p = [] ∨ c! '@' :: (modName p ++ c! ':' :: modArg p) <:+: p.comp := by
  obtain ⟨r, hr⟩ := isModifier_head hm
  unfold modName modArg
  by_cases h0 : p.marg = 0
  · left; rw [if_pos h0]
  · right
    rw [if_neg h0, if_neg h0]
    have hc := hp.colon h0
    obtain ⟨m, hm⟩ : ∃ m, p.marg = m + 1 := ⟨p.marg - 1, by omega⟩
    rw [hr, hm] at hc ⊢
    rw [List.getElem?_cons_succ] at hc
    have : r = r.take m ++ c! ':' :: r.drop (m + 1) := by
      obtain ⟨hl, hx⟩ := List.getElem?_eq_some_iff.1 hc
      conv => { lhs; rw [← List.take_append_drop m r, List.drop_eq_getElem_cons hl, hx] }
    unfold sub
    simp only [List.drop_succ_cons, List.drop_zero, Nat.add_sub_cancel]
    rw [← this]
    exact List.infix_rfl

/-- What a path must not do to a text. -/
def Safe (path json : Bytes) : Prop := (¬ b!"@pretty" <:+: path ∧ nu json) ∨ (¬ AsksPrefix path ∧ pk json)

theorem Safe.text {path json : Bytes} (h : Safe path json) : nu json := by
  rcases h with h | h
  · exact h.2
  · exact h.2.nu

/-- A safe path gives a value that can be used. -/
theorem get_clean {path : Bytes} : ∀ {json : Bytes} {v : Value}, Safe path json → get json path = .ok v → Clean v := by
  generalize hn : path.length = n
  induction n using Nat.strongRecOn generalizing path with
  | ind n ih =>
    intro json v hj h
    rw [get_eq, getBody] at h
    obtain ⟨⟨res, p⟩, h1, h2⟩ := bind_eq_ok.1 h
    simp only at h2
    have hres : Clean res := by
      have h3 := h1
      rw [getFirst_eq] at h3
      simp only at h3
      split at h3
      · exact gArr_clean h3
      split at h3
      · rename_i hm
        have hok := pNext_ok (linesPrefix path).1
        rw [modExec_eq hok hm] at h3
        obtain ⟨out, h4, h5⟩ := bind_eq_ok.1 h3
        cases h5
        refine (pParse_clean 0 ?_).owned (pParse_oneText _ _)
        have hci := hok.comp.isInfix.trans (linesPrefix_suffix path).isInfix
        by_cases hname : modName (pNext (linesPrefix path).1) = b!"pretty"
        · rcases hj with ⟨hnp, _⟩ | ⟨hr, hk⟩
          · have := modName_infix hm
            rw [hname] at this
            exact absurd (this.trans hci) hnp
          · rw [hname] at h4
            have hb : ∀ w, w ∈ [b!"\"prefix\"", b!"\\"] → ¬ w <:+: modArg (pNext (linesPrefix path).1) := by
              rintro w hw ⟨x, y, hxy⟩
              rcases modArg_infix hok hm with h5 | h5
              · rw [h5] at hxy
                simp at hw
                rcases hw with rfl | rfl <;> simp at hxy
              · rw [hname] at h5
                refine hr (AsksPrefix.mono (h5.trans hci) ⟨[], b!"@pretty:", _, by simp, rfl, x, w, y, hw, ?_, trivial⟩)
                show modArg (pNext (linesPrefix path).1) = _
                rw [← hxy, List.append_assoc]
            refine modPretty_nu hk ?_ (hb (quoted b!"prefix") (by decide)) (by simpa [modApply] using h4)
            intro hm
            obtain ⟨x, y, hxy⟩ := List.append_of_mem hm
            exact hb b!"\\" (by simp) ⟨x, y, by rw [hxy]; simp⟩
        · exact modApply_nu hname hj.text h4
      split at h3
      · exact multiExec_clean h3
      · exact gStart_clean h3
    split at h2
    · cases h2; exact hres
    · rename_i hm
      have hsep : p.sep ≠ 0 := by simpa [Path.more] using hm
      have hlt := getFirst_rest h1 hsep
      have hin := getFirst_within h1
      simp only at hlt hin
      have hone := (getFirst_prov h1).oneText
      simp only at hone
      have IH : ∀ {json : Bytes} {v : Value}, pk json → get json p.extra = .ok v → Clean v := by
        intro json v hk
        refine ih _ (by omega) rfl ?_
        rcases hj with hj | hj
        · exact .inl ⟨fun hp => hj.1 (hp.trans hin), hk.nu⟩
        · exact .inr ⟨fun hp => hj.1 (hp.mono hin), hk⟩
      have ht := hres.text
      unfold getIn at h2
      split at h2
      · rename_i hs
        obtain ⟨a, h3, h4⟩ := bind_eq_ok.1 h2
        cases h4
        have : res.json = res.slice := by
          rcases hone with h1 | h1
          · rw [h1] at hs; simp at hs
          · unfold Value.json; rw [h1]; simp
        rw [this] at ht
        exact (IH ht h3).moved _
      · rename_i hs
        obtain ⟨a, h3, h4⟩ := bind_eq_ok.1 h2
        cases h4
        have h0 : res.slice = [] := by simpa using hs
        have : res.json = res.owned := by
          unfold Value.json; rw [h0]; cases res.owned <;> simp
        rw [this] at ht
        exact ((IH ht h3).owned (get_prov h3).oneText).moved _

/-! ### Queries -/

theorem pParts_hash (p : Path) (h : (pParts p).1 ≠ []) : b!"#(" <+: p.comp := by
  have hp := queryParts_eq p
  unfold Path.queryParts at hp
  obtain ⟨o, h1, h2⟩ := bind_eq_ok.1 hp
  cases o with
  | none => simp at h2; rw [← h2] at h; simp at h
  | some q =>
    unfold queryInner at h1
    split at h1
    · simp at h1
    · simp only [bind_eq_ok] at h1
      obtain ⟨c0, e0, h1⟩ := h1
      split at h1
      · simp at h1
      · simp only [bind_eq_ok] at h1
        obtain ⟨c1, e1, h1⟩ := h1
        split at h1
        · simp at h1
        · rename_i g0 g1
          simp only [ne_eq, Decidable.not_not] at g0 g1
          subst g0 g1
          cases hc : p.comp with
          | nil => rw [hc] at e0; simp [idx] at e0
          | cons a r =>
            cases r with
            | nil => rw [hc] at e1; simp [idx] at e1
            | cons b r =>
              rw [hc] at e0 e1
              simp [idx] at e0 e1
              subst e0 e1
              exact ⟨r, rfl⟩

theorem queryRpv_ok (rpv : Bytes) : ∃ b, queryRpv rpv = .ok b := by
  unfold queryRpv
  split
  · obtain ⟨a, ha⟩ := idx_ok (b := rpv) (i := 0) (by omega)
    obtain ⟨b, hb⟩ := idx_ok (b := rpv) (i := rpv.length - 1) (by omega)
    rw [ha, hb]
    simp only [ok_bind]
    split
    · split
      · exact ⟨_, unescape_eq _⟩
      · exact ⟨_, slice_ok (by omega) (by omega)⟩
    · exact ⟨_, rfl⟩
  · exact ⟨_, rfl⟩

theorem strOp_ok (op rpv s : Bytes) : ∃ b, strOp op rpv s = .ok b := by
  unfold strOp
  repeat' split
  all_goals first
    | exact ⟨_, rfl⟩
    | exact ⟨_, pmatch_eq _ _⟩
    | (rw [pmatch_eq]; exact ⟨_, rfl⟩)

theorem queryCompare_ok {v : Value} (h : GoodVal v) (op rpv : Bytes) : ∃ b, queryCompare v op rpv = .ok b := by
  unfold queryCompare
  split
  · exact ⟨_, rfl⟩
  split
  · exact ⟨_, rfl⟩
  · rename_i he _
    have he' : v.exists = true := by simpa using he
    split
    · obtain ⟨s, hs⟩ := h.strOk (.inl he')
      rw [hs]; exact strOp_ok _ _ _
    · obtain ⟨s, hs⟩ := h.f64Ok (.inl he')
      rw [hs]; exact ⟨_, rfl⟩
    · exact ⟨_, rfl⟩
    · exact ⟨_, rfl⟩
    · exact ⟨_, rfl⟩

theorem boolValue_good (b : Bool) : GoodVal (boolValue b) := by
  cases b <;> exact ⟨fun _ h => absurd h (by decide), fun h => absurd h (by decide)⟩

theorem bool_fine (v : Value) : Fine True v.bool := by
  have hs : Fine True v.strForNum := by
    unfold Value.strForNum stripQuotes
    split
    · exact .of ⟨_, unescape_eq _⟩
    · split
      · exact .inr ⟨rfl, trivial⟩
      · unfold slice
        split
        · exact .ok _
        · exact .inr ⟨rfl, trivial⟩
  have hi : Fine True v.i64 := by
    unfold Value.i64
    split
    · exact .ok _
    · exact hs.bind (fun _ _ => .ok _)
    · exact .ok _
    · exact .ok _
  unfold Value.bool
  simp only
  split; · exact .ok _
  split; · exact .ok _
  split; · exact .ok _
  split; · exact .ok _
  split; · exact .ok _
  split; · exact .ok _
  exact hi.bind (fun _ _ => .ok _)

/-- A right side that begins with `~` once it is decoded. -/
theorem queryRpv_tilde {rpv r : Bytes} (h : queryRpv rpv = .ok (c! '~' :: r)) :
    ∃ w ∈ [b!"~", b!"\\"], w <:+: rpv := by
  have key : ∀ c ∈ rpv, [c] <:+: rpv := by
    intro c hc
    obtain ⟨x, y, hxy⟩ := List.append_of_mem hc
    exact ⟨x, y, by rw [hxy]; simp⟩
  unfold queryRpv at h
  split at h
  · obtain ⟨f, _, h⟩ := bind_eq_ok.1 h
    obtain ⟨l, _, h⟩ := bind_eq_ok.1 h
    split at h
    · split at h
      · rename_i hb; exact ⟨_, by simp, key _ hb⟩
      · refine ⟨b!"~", by simp, key _ ?_⟩
        rw [slice_ok (by omega) (by omega)] at h
        have : sub rpv 1 (rpv.length - 1) = c! '~' :: r := by simpa using h
        exact (sub_infix rpv 1 (rpv.length - 1)).subset (by rw [this]; simp)
    · cases h; exact ⟨b!"~", by simp, key _ (by simp)⟩
  · cases h; exact ⟨b!"~", by simp, key _ (by simp)⟩

theorem queryMatches_fine {B : Prop} {v : Value} (h : GoodVal v) (op rpv : Bytes)
    (hu : ((∃ w ∈ [b!"~", b!"\\"], w <:+: rpv) → B) ∨ Usable v) :
    Fine B (queryMatches v op rpv) := by
  unfold queryMatches
  obtain ⟨r, hr⟩ := queryRpv_ok rpv
  rw [hr]
  simp only [ok_bind]
  split
  · split
    · rename_i hc
      rcases hu with hB | hu
      · refine Fine.bind ?_ (fun b _ => .of (queryCompare_ok (boolValue_good b) _ _))
        rw [hc] at hr
        exact (bool_fine v).mono (fun _ => hB (queryRpv_tilde hr))
      · exact Fine.bind (.of (h.boolOk hu)) (fun b _ => .of (queryCompare_ok (boolValue_good b) _ _))
    · exact .of (queryCompare_ok h _ _)
  · exact .of (queryCompare_ok h _ _)

/-! ### Searches -/

theorem getIn_fine {B : Prop} {v : Value} {p : Bytes} (h : ∀ json, Fine B (get json p)) : Fine B (getIn get v p) := by
  unfold getIn
  split
  · exact (h _).bind (fun _ _ => .ok _)
  · exact (h _).bind (fun _ _ => .ok _)

theorem getIn_clean {v w : Value} {p : Bytes} (hv : Clean v) (h1 : OneText v) (hp : ¬ AsksPrefix p)
    (h : getIn get v p = .ok w) : Clean w := by
  have ht := hv.text
  unfold getIn at h
  split at h
  · rename_i hs
    obtain ⟨a, h3, h4⟩ := bind_eq_ok.1 h
    cases h4
    have : v.json = v.slice := by
      rcases h1 with h1 | h1
      · rw [h1] at hs; simp at hs
      · unfold Value.json; rw [h1]; simp
    rw [this] at ht
    exact (get_clean (.inr ⟨hp, ht⟩) h3).moved _
  · rename_i hs
    obtain ⟨a, h3, h4⟩ := bind_eq_ok.1 h
    cases h4
    have h0 : v.slice = [] := by simpa using hs
    have : v.json = v.owned := by
      unfold Value.json; rw [h0]; cases v.owned <;> simp
    rw [this] at ht
    exact ((get_clean (.inr ⟨hp, ht⟩) h3).owned (get_prov h3).oneText).moved _

/-- What a search along `path` needs from the recursive calls. -/
structure Need (B : Prop) (path : Path) : Prop where
  group : path.sep ≠ 0 → (∀ p, p <:+: path.extra → ∀ json, Fine B (get json p)) ∧ (PrefixInQuery path.extra → B)
  query : path.comp.head? = some c! '#' → (∀ p, p <:+: path.comp → p.length < path.comp.length → ∀ json, Fine B (get json p)) ∧
    (PrefixInQuery path.comp → B)

theorem Need.next {B : Prop} {path : Path} (h : Need B path) (hs : path.sep ≠ 0) : Need B (pNext path.extra) := by
  obtain ⟨h1, h2⟩ := h.group hs
  have hok := pNext_ok path.extra
  exact ⟨fun _ => ⟨fun p hp => h1 p (hp.trans hok.rest.isInfix), fun hb => h2 (hb.mono hok.rest.isInfix)⟩,
    fun _ => ⟨fun p hp _ => h1 p (hp.trans hok.comp.isInfix), fun hb => h2 (hb.mono hok.comp.isInfix)⟩⟩

/-- The values met while scanning. -/
structure Met (v : Value) : Prop where
  prov : Prov v
  clean : Clean v

theorem elemMatches_fine {B : Prop} {path : Path} (hN : Need B path) (hh : path.comp.head? = some c! '#')
    {v : Value} (hv : Met v) :
    Fine B (elemMatches get (pParts path).1 (pParts path).2.1 (pParts path).2.2 v) := by
  unfold elemMatches
  split
  · rename_i hl
    have hl' : (pParts path).1 ≠ [] := by simpa using hl
    have hok := pParts_ok path
    obtain ⟨h1, h2⟩ := hN.query hh
    refine (getIn_fine (h1 _ hok.left (hok.len hl'))).bind (fun w hw => ?_)
    have hg := (valueGet_prov (v := v) (path := (pParts path).1) hw).good
    refine queryMatches_fine hg _ _ ?_
    by_cases hp : AsksPrefix (pParts path).1
    · refine .inl fun ⟨w, hw, hw2⟩ => h2 ?_
      obtain ⟨r, hr⟩ := pParts_hash path hl'
      obtain ⟨x, y, z, hx⟩ := hok.inner
      obtain ⟨x2, z2, hx2⟩ := hw2
      have hdr : path.comp.drop 2 = r := by rw [← hr]; rfl
      rw [hdr] at hx
      refine ⟨[], b!"#(", r, by simp, hr.symm, ?_⟩
      rw [hx]
      refine Spec.InOrder.mono (List.suffix_append x _).isInfix
        (Spec.InOrder.append (ws := [[b!"@pretty:"], [b!"\"prefix\"", b!"\\"]]) hp ?_)
      exact ⟨y ++ x2, w, z2 ++ z, hw, by rw [← hx2]; simp, trivial⟩
    · exact .inr (getIn_clean hv.clean hv.prov.oneText hp hw).use
  · exact queryMatches_fine hv.prov.good _ _ (.inr hv.clean.use)

theorem collectR_fine {B : Prop} {f : Value → Res (Option Value)} : ∀ {vals : List Value},
    (∀ v ∈ vals, Fine B (f v)) → Fine B (collectR f vals)
  | [], _ => .ok _
  | v :: r, h => by
    unfold collectR
    refine (h v (by simp)).bind (fun o _ => ?_)
    exact (collectR_fine (fun w hw => h w (by simp [hw]))).bind (fun _ _ => .ok _)

theorem findR_fine {B : Prop} {f : Value → Res Bool} : ∀ {vals : List Value},
    (∀ v ∈ vals, Fine B (f v)) → Fine B (findR f vals)
  | [], _ => .ok _
  | v :: r, h => by
    unfold findR
    refine (h v (by simp)).bind (fun o _ => ?_)
    split
    · exact .ok _
    · exact findR_fine (fun w hw => h w (by simp [hw]))

theorem gArr_fine {B : Prop} {path : Path} (hN : Need B path) {L : Nat} {lines : Bool} {s : Bytes} :
    Fine B (gArr get L lines path s) := by
  have hmet : ∀ v ∈ eachToks (L - s.length) lines s, Met v :=
    fun v hv => ⟨eachToks_prov _ _ _ v hv, eachToks_clean _ _ _ v hv⟩
  have hgrp : path.sep = c! '.' → ∀ v, Fine B (getIn get v (pGroup path).1) := by
    intro hs v
    exact getIn_fine ((hN.group (by rw [hs]; decide)).1 _ (pGroup_ok path hs).pre.isInfix)
  unfold gArr
  revert hmet
  generalize eachToks (L - s.length) lines s = vals
  intro hmet
  unfold gArrVals
  simp only
  split
  · exact .ok _
  · rename_i c t hc
    split
    · rename_i hh
      have hhead : path.comp.head? = some c! '#' := by rw [hc, hh]; rfl
      split
      · split
        · rename_i hs
          refine (collectR_fine (fun v _ => ?_)).bind (fun _ _ => .ok _)
          exact (hgrp hs v).bind (fun _ _ => .ok _)
        · exact .ok _
      · split
        · refine (collectR_fine (fun v hv => ?_)).bind (fun _ _ => .ok _)
          refine (elemMatches_fine hN hhead (hmet v hv)).bind (fun b _ => ?_)
          split
          · split
            · rename_i hs
              exact (hgrp hs v).bind (fun _ _ => .ok _)
            · exact .ok _
          · exact .ok _
        · exact (findR_fine (fun v hv => elemMatches_fine hN hhead (hmet v hv))).bind (fun _ _ => .ok _)
    · exact .ok _

theorem gObjLoop_fine {B : Prop} {dive : Bytes → Res (Value × Path)} {L : Nat} {path : Path}
    (hd : path.dives = true → ∀ s, Fine B (dive s)) : ∀ (s : Bytes), Fine B (gObjLoop dive L path s) := by
  intro s
  generalize hn : s.length = n
  induction n using Nat.strongRecOn generalizing s with
  | ind n ih =>
    cases s with
    | nil => rw [gObjLoop_nil]; exact .ok _
    | cons c r =>
      by_cases c1 : c = c! '}'
      · rw [c1, gObjLoop_close]; exact .ok _
      by_cases c2 : c = c! '"'
      · subst c2
        cases hq : qStr r with
        | none => rw [gObjLoop_nokey _ _ _ hq]; exact .ok _
        | some y =>
          obtain ⟨b, f, q⟩ := y
          cases hv : pSkipColon q with
          | nil => rw [gObjLoop_noval _ _ _ hq hv]; exact .ok _
          | cons c3 r3 =>
            rw [gObjLoop_key _ _ _ hq hv]
            have l1 := qStr_lt hq
            have l2 := pSkipColon_le q
            rw [hv] at l2
            have l3 := leafTok_lt (s := c3 :: r3) (by simp)
            simp only [List.length_cons] at hn l2 l3
            have next := ih (leafTok (c3 :: r3)).2.length (by omega) _ rfl
            split
            · split
              · rename_i hdv
                refine (hd hdv.1 _).bind (fun x _ => ?_)
                obtain ⟨res, p⟩ := x
                simp only
                split
                · exact .ok _
                · exact ih (c3 :: r3).length (by simp only [List.length_cons]; omega) _ rfl
              · split
                · exact .ok _
                · exact next
            · exact next
      · rw [gObjLoop_skip _ _ _ _ c1 c2]
        exact ih r.length (by simp at hn; omega) _ rfl

theorem gObj_fine {B : Prop} {L : Nat} : ∀ (k : Nat) {path : Path}, pathRank path < k → Need B path →
    ∀ {s : Bytes}, Fine B (gObj get L path s)
  | 0, _, h, _, _ => by omega
  | k + 1, path, hk, hN, s => by
    rw [gObj.eq_def]
    cases s with
    | nil => exact .ok _
    | cons c r =>
      simp only
      split
      · exact .ok _
      · refine gObjLoop_fine (fun hd v => ?_) r
        rw [dif_pos hd]
        have := pathRank_next hd
        have hs : path.sep ≠ 0 := by
          unfold Path.dives at hd; simp at hd; rw [hd.1.1]; decide
        split
        · exact gObj_fine k (by omega) (hN.next hs)
        · exact gArr_fine (hN.next hs)

theorem gStart_fine {B : Prop} {L : Nat} {path : Path} (hN : Need B path) : ∀ {s : Bytes}, Fine B (gStart get L path s)
  | [] => .ok _
  | c :: r => by
    unfold gStart
    split
    · exact gStart_fine hN
    split
    · exact gObj_fine _ (Nat.lt_succ_self _) hN
    split
    · exact gArr_fine hN
    · exact .ok _

/-- Looking up an option of a modifier always works. -/
theorem get_option {name : Bytes} (h : name ∈ optionNames) (json : Bytes) :
    ∃ v, get json name = .ok v ∧ Clean v ∧ GoodVal v := by
  have key : linesPrefix name = (name, false) ∧ pathNext name = .ok ⟨name, false, false, 0, 0, []⟩ ∧
      name.head? ≠ some c! '@' ∧ name.head? ≠ some c! '#' ∧ name.head? ≠ some c! '{' ∧ name.head? ≠ some c! '[' := by
    revert name; decide
  obtain ⟨h1, h2, h3, h4, h5, h6⟩ := key
  have h7 : pNext name = ⟨name, false, false, 0, 0, []⟩ := by unfold pNext; rw [h2]
  have hm : (⟨name, false, false, 0, 0, []⟩ : Path).isModifier = false := by
    unfold Path.isModifier; cases name <;> simp_all
  have hmp : (⟨name, false, false, 0, 0, []⟩ : Path).isMultipath = false := by
    unfold Path.isMultipath; cases name <;> simp_all
  have hN : Need False (⟨name, false, false, 0, 0, []⟩ : Path) :=
    ⟨fun h => absurd rfl h, fun h => absurd h h4⟩
  have hS : Sized 0 (⟨name, false, false, 0, 0, []⟩ : Path) := ⟨fun h => absurd h h4, fun h => absurd rfl h⟩
  have hf := gStart_fine hN (L := json.length) (s := json)
  rcases hf with ⟨x, hx⟩ | ⟨_, hf⟩
  · have hr := gStart_rest hS hx
    have hs : x.2.sep = 0 := by
      by_cases h0 : x.2.sep = 0
      · exact h0
      · have := hr h0; omega
    have : get json name = .ok x.1 := by
      rw [get_eq, getBody, getFirst_eq, h1]
      simp only [h7, hm, hmp, hx]
      simp [Path.more, hs]
    exact ⟨_, this, gStart_clean hx, (get_prov this).good⟩
  · exact hf.elim

/-! ### Positions of the values met -/

/-- Values at increasing positions between `lo` and `hi`. -/
def Placed (hi : Nat) : Nat → List Value → Prop
  | _, [] => True
  | lo, v :: r => ∃ j, v.index = some j ∧ lo ≤ j ∧ j + v.slice.length ≤ hi ∧ Placed hi (j + v.slice.length) r

theorem Placed.lower {hi : Nat} : ∀ {lo lo' : Nat} {l : List Value}, lo' ≤ lo → Placed hi lo l → Placed hi lo' l
  | _, _, [], _, _ => trivial
  | _, _, _ :: _, h, ⟨j, h1, h2, h3⟩ => ⟨j, h1, by omega, h3⟩

theorem toks_placed (hi : Nat) (i : Nat) (s : Bytes) (h : i + s.length = hi) : Placed hi i (toks i s) := by
  generalize hn : s.length = n
  induction n using Nat.strongRecOn generalizing i s with
  | ind n ih =>
    cases s with
    | nil => rw [toks_nil]; trivial
    | cons c r =>
      by_cases c1 : c ≤ c! ' ' ∨ c = c! ',' ∨ c = c! ':'
      · rw [toks_skip c1]
        exact (ih r.length (by simp at hn; omega) (i + 1) r (by simp at h; omega) rfl).lower (by omega)
      by_cases c2 : c = c! '}' ∨ c = c! ']'
      · rw [toks_close c2]; trivial
      rw [toks_tok c1 c2]
      split
      · rename_i he
        have hlt := leafTok_lt (s := c :: r) (by simp)
        rcases leafTok_split (s := c :: r) (by simp) with ⟨v, info, h1, h2, h3⟩ | ⟨_, h1⟩
        · have hl := congrArg List.length h3
          have hv : tokVal i (leafTok (c :: r)).1 = mkVal v (some i) info := by rw [h1]; rfl
          rw [hv]
          simp only [List.length_append] at hl
          refine ⟨i, mkVal_index _ _ _, Nat.le_refl _, ?_, ?_⟩
          · rw [mkVal_slice]; omega
          · rw [mkVal_slice]
            have := ih _ (by omega) (i + ((c :: r).length - (leafTok (c :: r)).2.length)) (leafTok (c :: r)).2 (by omega) rfl
            exact this.lower (by omega)
        · rw [h1 i] at he; simp at he
      · trivial

theorem Placed.mem {hi : Nat} : ∀ {lo : Nat} {l : List Value}, Placed hi lo l → ∀ v ∈ l,
    ∃ j, v.index = some j ∧ lo ≤ j ∧ j + v.slice.length ≤ hi
  | _, [], _, v, hv => by simp at hv
  | lo, a :: r, ⟨j, h1, h2, h3, h4⟩, v, hv => by
    rcases List.mem_cons.1 hv with rfl | hv
    · exact ⟨j, h1, h2, h3⟩
    · obtain ⟨j', g1, g2, g3⟩ := Placed.mem h4 v hv
      exact ⟨j', g1, by omega, g3⟩

theorem Placed.pair {hi : Nat} : ∀ {lo : Nat} {l : List Value}, Placed hi lo l → ∀ x ∈ pairUp l,
    ∃ j j', x.1.index = some j ∧ x.2.index = some j' ∧ lo ≤ j ∧ j ≤ j' ∧ j' + x.2.slice.length ≤ hi
  | _, [], _, v, hv => by simp [pairUp] at hv
  | _, [_], _, v, hv => by simp [pairUp] at hv
  | lo, a :: b :: r, ⟨j, h1, h2, h3, j', h4, h5, h6, h7⟩, v, hv => by
    unfold pairUp at hv
    rcases List.mem_cons.1 hv with rfl | hv
    · exact ⟨j, j', h1, h4, h2, by omega, h6⟩
    · obtain ⟨i1, i2, g1, g2, g3, g4, g5⟩ := Placed.pair h7 v hv
      exact ⟨i1, i2, g1, g2, by omega, g4, g5⟩

theorem pairUp_mem {l : List Value} : ∀ x ∈ pairUp l, x.1 ∈ l ∧ x.2 ∈ l := by
  match l with
  | [] => simp [pairUp]
  | [_] => simp [pairUp]
  | a :: b :: r =>
    intro x hx
    unfold pairUp at hx
    rcases List.mem_cons.1 hx with rfl | hx
    · simp
    · have := pairUp_mem (l := r) x hx
      simp [this]

/-! ### Modifiers -/

theorem runFold_fine {B : Prop} {σ : Type} {f : σ → Value → Value → Res (σ × Bool)} :
    ∀ (l : List (Value × Value)) (st : σ), (∀ x ∈ l, ∀ st, Fine B (f st x.1 x.2)) → Fine B (runFold f st l)
  | [], st, _ => .ok _
  | (k, v) :: r, st, h => by
    unfold runFold
    refine (h (k, v) (by simp) st).bind (fun y _ => ?_)
    obtain ⟨s1, more⟩ := y
    simp only
    split
    · exact runFold_fine r _ (fun x hx => h x (by simp [hx]))
    · exact .ok _

theorem each_fine {B : Prop} {σ : Type} {v : Value} {f : σ → Value → Value → Res (σ × Bool)}
    (hk : v.kind = .object ∨ v.kind = .array)
    (h : ∀ x ∈ eachPairs v.kind (eachToks 0 false v.json), ∀ st, Fine B (f st x.1 x.2)) (st : σ) : Fine B (v.each f st) := by
  by_cases he : v.exists = true
  · rw [each_run he hk]; exact runFold_fine _ _ h
  · unfold Value.each; rw [if_pos (by simpa using he)]; exact .ok _

theorem pParse_slice : ∀ (s : Bytes) (i : Nat), (pParse i s).json = (pParse i s).slice ∧ (pParse i s).slice.length ≤ s.length
  | [], _ => ⟨rfl, Nat.le_refl _⟩
  | c :: r, i => by
    unfold pParse
    split
    · have := pParse_slice r (i + 1); simp only [List.length_cons]; exact ⟨this.1, by omega⟩
    split
    · simp
    split
    · simp
    split
    · rcases leafTok_split (s := c :: r) (by simp) with ⟨v, info, h1, h2, h3⟩ | ⟨_, h1⟩
      · have hl := congrArg List.length h3
        simp only [List.length_append] at hl
        rw [h1]; simp only [tokVal, mkVal_json, mkVal_slice]
        exact ⟨trivial, by omega⟩
      · have h2 := h1 i
        cases ht : (leafTok (c :: r)).1 with
        | none => exact ⟨rfl, by simp [tokVal, Value.default]⟩
        | some x =>
          obtain ⟨v, info⟩ := x
          rw [ht] at h2
          simp [tokVal] at h2
          subst h2
          simp [tokVal]
    · exact ⟨rfl, by simp [Value.default]⟩

theorem eachToks_placed (s : Bytes) : Placed s.length 1 (eachToks 0 false s) := by
  unfold eachToks
  simp only [Bool.false_eq_true, if_false]
  cases s with
  | nil => rw [List.drop_nil, toks_nil]; trivial
  | cons c r => exact toks_placed _ _ _ (by simp; omega)

theorem modReverse_ok (json : Bytes) : ∃ b, modReverse json = .ok b := by
  unfold modReverse
  rw [parse_eq]
  simp only [ok_bind]
  have hs := (pParse_slice json 0).1
  have hpl := eachToks_placed (pParse 0 json).json
  have key : Fine False (match (pParse 0 json).kind with
    | .object => do
      let slices ← (pParse 0 json).each (fun (slices : List Bytes) key value => do
        let kindex ← unwrapIndex key
        let vindex ← unwrapIndex value
        let s ← slice (pParse 0 json).slice kindex (vindex + value.slice.length)
        .ok (slices ++ [s], true)) []
      .ok ([c! '{'] ++ joinComma slices.reverse ++ [c! '}'])
    | .array => do
      let slices ← (pParse 0 json).each (fun (slices : List Bytes) _ value => do
        let vindex ← unwrapIndex value
        let s ← slice (pParse 0 json).slice vindex (vindex + value.slice.length)
        .ok (slices ++ [s], true)) []
      .ok ([c! '['] ++ joinComma slices.reverse ++ [c! ']'])
    | _ => .ok (pParse 0 json).slice) := by
    split
    · rename_i hk
      refine Fine.bind (each_fine (.inl hk) ?_ _) (fun _ _ => .ok _)
      intro x hx st
      rw [hk] at hx
      obtain ⟨j, j', h1, h2, h3, h4, h5⟩ := hpl.pair x hx
      unfold unwrapIndex
      rw [h1, h2]
      simp only [ok_bind]
      rw [slice_ok (by omega) (by rw [← hs]; exact h5)]
      exact .ok _
    · rename_i hk
      refine Fine.bind (each_fine (.inr hk) ?_ _) (fun _ _ => .ok _)
      intro x hx st
      rw [hk] at hx
      unfold eachPairs at hx
      simp only [reduceCtorEq, if_false, List.mem_map] at hx
      obtain ⟨v, hv, rfl⟩ := hx
      obtain ⟨j, h1, h2, h3⟩ := hpl.mem v hv
      unfold unwrapIndex
      rw [h1]
      simp only [ok_bind]
      rw [slice_ok (by omega) (by rw [← hs]; exact h3)]
      exact .ok _
    · exact .ok _
  rcases key with h | ⟨_, h⟩
  · exact h
  · exact h.elim

theorem modFlattenN_ok (arg : Bytes) : ∀ (n : Nat) (json : Bytes), json.length < n → ∃ b, modFlattenN get n json arg = .ok b
  | 0, _, h => by omega
  | n + 1, json, hl => by
    have key : Fine False (modFlattenN get (n + 1) json arg) := by
      unfold modFlattenN
      rw [parse_eq]
      simp only [ok_bind]
      split
      · exact .ok _
      · rename_i hk
        have hk : (pParse 0 json).kind = .array := by simpa using hk
        obtain ⟨d, hd, hd2, hd3⟩ := get_option (name := b!"deep") (by decide) arg
        rw [hd]
        simp only [ok_bind]
        obtain ⟨deep, hdeep⟩ := hd3.boolOk hd2.use
        rw [hdeep]
        simp only [ok_bind]
        refine Fine.bind (each_fine (.inr hk) ?_ _) (fun _ _ => .ok _)
        intro x hx st
        rw [hk] at hx
        unfold eachPairs at hx
        simp only [reduceCtorEq, if_false, List.mem_map] at hx
        obtain ⟨v, hv, rfl⟩ := hx
        obtain ⟨j, h1, h2, h3⟩ := (eachToks_placed _).mem v hv
        have hj := (eachToks_exist _ _ _ v hv).2
        have hp := pParse_slice json 0
        rw [hp.1] at h3
        have hin := modFlattenN_ok arg n v.json (by rw [hj]; omega)
        obtain ⟨o, ho⟩ := hin
        simp only [ho, ok_bind]
        split
        · split
          · split
            · exact .ok _
            · exact .ok _
          · split
            · exact .ok _
            · exact .ok _
        · split
          · exact .ok _
          · exact .ok _
    rcases key with h | ⟨_, h⟩
    · exact h
    · exact h.elim

theorem mapGet_insert (k v k' : Bytes) : ∀ m, mapGet k' (mapInsert k v m) = if k = k' then some v else mapGet k' m
  | [] => by simp [mapInsert, mapGet]
  | (a, b) :: r => by
    unfold mapInsert
    by_cases h : a = k
    · rw [if_pos h]
      subst h
      by_cases h2 : a = k'
      · simp [mapGet, h2]
      · simp [mapGet, h2]
    · rw [if_neg h]
      by_cases h2 : a = k'
      · subst h2
        have : ¬ k = a := fun e => h e.symm
        simp [mapGet, this]
      · simp only [mapGet, h2, if_false]
        exact mapGet_insert k v k' r

theorem joinMembers_ok {m : List (Bytes × Bytes)} : ∀ {l : List (Bytes × Bytes)}, (∀ x ∈ l, (mapGet x.2 m).isSome) →
    ∃ b, joinMembers m l = .ok b
  | [], _ => ⟨_, rfl⟩
  | (raw, k) :: r, h => by
    obtain ⟨b, hb⟩ := joinMembers_ok (l := r) (fun x hx => h x (by simp [hx]))
    have hk := h (raw, k) (by simp)
    unfold joinMembers
    cases hm : mapGet k m with
    | none => rw [hm] at hk; simp at hk
    | some v => simp only [hb]; exact ⟨_, rfl⟩

theorem toks_good (i : Nat) (lines : Bool) (s : Bytes) (v : Value) (h : v ∈ eachToks i lines s) :
    v.exists = true ∧ GoodVal v := ⟨(eachToks_exist _ _ _ v h).1, (eachToks_prov _ _ _ v h).good⟩

/-- The keys that were seen are in the map. -/
def JoinInv (st : List (Bytes × Bytes) × List (Bytes × Bytes)) : Prop := ∀ x ∈ st.1, (mapGet x.2 st.2).isSome

theorem joinInv_step {st : List (Bytes × Bytes) × List (Bytes × Bytes)} (h : JoinInv st) (raw k v : Bytes) :
    JoinInv (if (mapGet k st.2).isNone then st.1 ++ [(raw, k)] else st.1, mapInsert k v st.2) := by
  intro x hx
  simp only at hx ⊢
  rw [mapGet_insert]
  split
  · rfl
  · rename_i hk
    split at hx
    · rcases List.mem_append.1 hx with hx | hx
      · exact h x hx
      · simp at hx; rw [hx] at hk; exact absurd rfl hk
    · exact h x hx

theorem modJoin_ok (json arg : Bytes) : ∃ b, modJoin get json arg = .ok b := by
  have key : Fine False (modJoin get json arg) := by
    unfold modJoin
    rw [parse_eq]
    simp only [ok_bind]
    split
    · exact .ok _
    · rename_i hk
      have hk : (pParse 0 json).kind = .array := by simpa using hk
      obtain ⟨d, hd, hd2, hd3⟩ := get_option (name := b!"preserve") (by decide) arg
      rw [hd]
      simp only [ok_bind]
      obtain ⟨deep, hdeep⟩ := hd3.boolOk hd2.use
      rw [hdeep]
      simp only [ok_bind]
      split
      · refine Fine.bind (each_fine (.inr hk) ?_ _) (fun _ _ => .ok _)
        intro x hx st
        split
        · exact .ok _
        · exact .ok _
      · refine Fine.bind (each_fine (.inr hk) ?_ _) ?_
        · intro x hx st
          split
          · exact .ok _
          · rename_i hko
            have hko : x.2.kind = .object := by simpa using hko
            refine Fine.bind (each_fine (.inl hko) ?_ _) (fun _ _ => .ok _)
            intro y hy st
            rw [hko] at hy
            have hm := (pairUp_mem y hy).1
            obtain ⟨h1, h2⟩ := toks_good _ _ _ _ hm
            obtain ⟨s, hs⟩ := h2.strOk (.inl h1)
            rw [hs]
            exact .ok _
        · intro st hst
          have : JoinInv st := by
            refine each_ind (P := JoinInv) ?_ (by intro x hx; simp at hx) hst
            intro st k v x hs hf
            split at hf
            · cases hf; exact hs
            · obtain ⟨st1, h1, h2⟩ := bind_eq_ok.1 hf
              cases h2
              refine each_ind (P := JoinInv) ?_ hs h1
              intro st k v x hs hf
              obtain ⟨kk, h3, h4⟩ := bind_eq_ok.1 hf
              cases h4
              exact joinInv_step hs _ _ _
          exact Fine.bind (.of (joinMembers_ok this)) (fun _ _ => .ok _)
  rcases key with h | ⟨_, h⟩
  · exact h
  · exact h.elim

theorem modPretty_ok (json arg : Bytes) : ∃ b, modPretty get json arg = .ok b := by
  unfold modPretty
  split
  · obtain ⟨a, ha, _, ha3⟩ := get_option (name := b!"indent") (by decide) arg
    obtain ⟨b, hb, _, hb3⟩ := get_option (name := b!"prefix") (by decide) arg
    obtain ⟨c, hc, _, hc3⟩ := get_option (name := b!"sortKeys") (by decide) arg
    obtain ⟨d, hd, _, hd3⟩ := get_option (name := b!"width") (by decide) arg
    rw [ha, hb, hc, hd]
    simp only [ok_bind]
    have stepI : ∀ o, ∃ q, optIndent o a = .ok q := by
      intro o
      unfold optIndent
      split
      · rename_i he
        obtain ⟨x, hx⟩ := ha3.strOk (.inl he)
        rw [hx]; exact ⟨_, rfl⟩
      · exact ⟨_, rfl⟩
    have stepP : ∀ o, ∃ q, optPrefix o b = .ok q := by
      intro o
      unfold optPrefix
      split
      · rename_i he
        obtain ⟨x, hx⟩ := hb3.strOk (.inl he)
        rw [hx]; exact ⟨_, rfl⟩
      · exact ⟨_, rfl⟩
    have stepS : ∀ o, ∃ q, optSortKeys o c = .ok q := by
      intro o
      unfold optSortKeys
      split
      · rename_i he
        obtain ⟨x, hx⟩ := hc3.boolOk (.inl he)
        rw [hx]; exact ⟨_, rfl⟩
      · exact ⟨_, rfl⟩
    have stepW : ∀ o, ∃ q, optWidth o d = .ok q := by
      intro o
      unfold optWidth
      split
      · rename_i he
        obtain ⟨x, hx⟩ := hd3.u64Ok (.inl he)
        unfold Value.u32
        rw [hx]; exact ⟨_, rfl⟩
      · exact ⟨_, rfl⟩
    obtain ⟨o1, h1⟩ := stepI PrettyOptions.default
    obtain ⟨o2, h2⟩ := stepP o1
    obtain ⟨o3, h3⟩ := stepS o2
    obtain ⟨o4, h4⟩ := stepW o3
    rw [h1]
    simp only [ok_bind, h2, h3, h4]
    exact prettyOptions_ok _ _
  · exact prettyOptions_ok _ _

theorem modApply_ok (name json arg : Bytes) : ∃ b, modApply get name json arg = .ok b := by
  unfold modApply
  split
  · exact ⟨_, rfl⟩
  split
  · exact modReverse_ok _
  split
  · exact ⟨_, ugly_eq _⟩
  split
  · exact modPretty_ok _ _
  split
  · unfold modValid
    rw [valid_eq_pText]
    simp only [ok_bind]
    split <;> exact ⟨_, rfl⟩
  split
  · exact modFlattenN_ok _ _ _ (by omega)
  split
  · exact modJoin_ok _ _
  · exact ⟨_, rfl⟩

/-! ### Multipaths -/

theorem nameOfLastLoop_ok (path : Bytes) : ∀ n, n ≤ path.length → ∃ b, nameOfLastLoop path n = .ok b
  | 0, _ => ⟨_, rfl⟩
  | i + 1, h => by
    obtain ⟨c, hc⟩ := idx_ok (b := path) (i := i) (by omega)
    have ih := nameOfLastLoop_ok path i (by omega)
    have hs : ∃ b, sliceFrom path (i + 1) = .ok b := ⟨_, (At.mk' h).sliceFrom⟩
    unfold nameOfLastLoop
    rw [hc]
    simp only [ok_bind]
    split
    · split
      · obtain ⟨d, hd⟩ := idx_ok (b := path) (i := i - 1) (by omega)
        rw [hd]
        simp only [ok_bind]
        split
        · exact ih
        · exact hs
      · exact hs
    · exact ih

theorem compAt_ok {path : Bytes} {s i : Nat} {c : Option Nat} (h1 : s ≤ i) (h2 : i ≤ path.length)
    (hc : ∀ x, c = some x → s ≤ x ∧ x < i) :
    ∃ k p, compAt path s i c = .ok (k, p) ∧ p <:+: path := by
  unfold compAt
  cases c with
  | some c =>
    obtain ⟨g1, g2⟩ := hc c rfl
    simp only
    rw [slice_ok g1 (by omega), slice_ok (by omega) h2]
    exact ⟨_, _, rfl, sub_infix _ _ _⟩
  | none =>
    simp only
    rw [slice_ok h1 h2]
    simp only [ok_bind]
    unfold keyForPath nameOfLast
    obtain ⟨b, hb⟩ := nameOfLastLoop_ok (sub path s i) _ (Nat.le_refl _)
    rw [hb]
    exact ⟨_, _, rfl, sub_infix _ _ _⟩

theorem eachCompLoop_fine {B : Prop} {σ : Type} {path : Bytes} {f : σ → Bytes → Bytes → Res σ}
    (hf : ∀ st k p, p <:+: path → Fine B (f st k p)) :
    ∀ (n i : Nat) (c : Option Nat) (s : Nat) (st : σ), s ≤ i → i ≤ path.length → (∀ x, c = some x → s ≤ x ∧ x < i) →
      path.length - i < n → Fine B (eachCompLoop path f n i c s st)
  | 0, _, _, _, _, _, _, _, h => by omega
  | n + 1, i, c, s, st, h1, h2, hc, hn => by
    obtain ⟨k, p, hk, hp⟩ := compAt_ok h1 h2 hc
    unfold eachCompLoop
    split
    · rw [hk]; exact hf _ _ _ hp
    · rename_i hi
      have hlt : i < path.length := by omega
      obtain ⟨ch, hch⟩ := idx_ok hlt
      rw [hch]
      simp only [ok_bind]
      split
      · split
        · exact .ok _
        · exact eachCompLoop_fine hf n _ _ _ _ (by omega) (by omega) (fun x hx => by have := hc x hx; omega) (by omega)
      split
      · have hA : At path i (path.drop i) := At.mk' (by omega)
        cases hd : path.drop i with
        | nil => have := congrArg List.length hd; simp at this; omega
        | cons a r =>
          rw [hd] at hA
          obtain ⟨b, q, j, g1, g2, g3⟩ := scanSquash_total hA
          rw [g1]
          have := g3.1
          exact eachCompLoop_fine hf n _ _ _ _ (by omega) (by omega) (fun x hx => by have := hc x hx; omega) (by omega)
      split
      · rw [hk]
        simp only [ok_bind]
        refine (hf _ _ _ hp).bind (fun st1 _ => ?_)
        exact eachCompLoop_fine hf n _ _ _ _ (by omega) (by omega) (fun x hx => by simp at hx) (by omega)
      split
      · exact eachCompLoop_fine hf n _ _ _ _ (by omega) (by omega) (fun x hx => by simp at hx; omega) (by omega)
      · exact eachCompLoop_fine hf n _ _ _ _ (by omega) (by omega) (fun x hx => by have := hc x hx; omega) (by omega)

theorem eachComp_fine {B : Prop} {σ : Type} {path : Bytes} {f : σ → Bytes → Bytes → Res σ} (hl : 2 ≤ path.length)
    (hf : ∀ st k p, p <:+: path → p.length < path.length → Fine B (f st k p)) (st : σ) : Fine B (eachComp path f st) := by
  unfold eachComp
  rw [if_neg (by omega), slice_ok (by omega) (by omega)]
  simp only [ok_bind]
  have hlen : (sub path 1 (path.length - 1)).length < path.length := by unfold sub; simp; omega
  refine eachCompLoop_fine (fun st k p hp => hf st k p (hp.trans (sub_infix _ _ _)) ?_) _ _ _ _ _ (by omega) (by omega)
    (fun x hx => by simp at hx) (by omega)
  have := hp.length_le
  omega

theorem multiExec_fine {B : Prop} {json : Bytes} {path : Path} (hm : path.isMultipath = true)
    (hr : ∀ p, p <:+: path.comp → p.length < path.comp.length → ∀ json, Fine B (get json p)) :
    Fine B (multiExec get json path) := by
  obtain ⟨c, r, hc, hcc⟩ : ∃ c r, path.comp = c :: r ∧ (c = c! '[' ∨ c = c! '{') := by
    unfold Path.isMultipath at hm
    cases hp : path.comp with
    | nil => simp [hp] at hm
    | cons c r => exact ⟨c, r, rfl, by simpa [hp, or_comm] using hm⟩
  have hun : ∀ cls, unclosed path.comp cls = .ok (decide (path.comp.getLast? ≠ some cls)) := by
    intro cls
    unfold unclosed idx
    rw [if_neg (by rw [hc]; simp), List.getLast?_eq_getElem?]
    have : path.comp.length - 1 < path.comp.length := by rw [hc]; simp
    rw [List.getElem?_eq_getElem this]
    simp
  have hlen : ∀ cls, cls ≠ c → path.comp.getLast? = some cls → 2 ≤ path.comp.length := by
    intro cls hne hl
    cases r with
    | nil => rw [hc] at hl; simp at hl; exact absurd hl.symm hne
    | cons a b => rw [hc]; simp
  unfold multiExec
  have h0 : idx path.comp 0 = .ok c := by rw [hc]; rfl
  rw [h0]
  simp only [ok_bind]
  split
  · rename_i hb
    unfold execArr
    rw [hun]
    simp only [ok_bind]
    split
    · exact .ok _
    · rename_i hl
      have hl : path.comp.getLast? = some c! ']' := by simpa using hl
      refine Fine.bind (eachComp_fine (hlen _ (by rw [hb]; decide) hl) ?_ _) ?_
      · intro st k p hp hpl
        exact (hr p hp hpl json).bind (fun _ _ => .ok _)
      · intro x _
        rw [jsonFromOwned_eq]; exact .ok _
  · rename_i hb
    have hb : c = c! '{' := hcc.resolve_left hb
    unfold execObj
    rw [hun]
    simp only [ok_bind]
    split
    · exact .ok _
    · rename_i hl
      have hl : path.comp.getLast? = some c! '}' := by simpa using hl
      refine Fine.bind (eachComp_fine (hlen _ (by rw [hb]; decide) hl) ?_ _) ?_
      · intro st k p hp hpl
        exact (hr p hp hpl json).bind (fun _ _ => .ok _)
      · intro x _
        rw [jsonFromOwned_eq]; exact .ok _

/-! ### get -/

theorem get_fine (path : Bytes) : ∀ json, Fine (PrefixInQuery path) (get json path) := by
  generalize hn : path.length = n
  induction n using Nat.strongRecOn generalizing path with
  | ind n ih =>
    intro json
    have IH : ∀ p, p <:+: path → p.length < path.length → ∀ json, Fine (PrefixInQuery path) (get json p) :=
      fun p hp hl json => (ih p.length (by omega) p rfl json).mono (PrefixInQuery.mono hp)
    have hok := pNext_ok (linesPrefix path).1
    have hsuf := linesPrefix_suffix path
    have hci : (pNext (linesPrefix path).1).comp <:+: path := hok.comp.isInfix.trans hsuf.isInfix
    have hei : (pNext (linesPrefix path).1).extra <:+: path := hok.rest.isInfix.trans hsuf.isInfix
    have hN : Need (PrefixInQuery path) (pNext (linesPrefix path).1) := by
      refine ⟨fun hs => ⟨fun p hp => IH p (hp.trans hei) ?_, PrefixInQuery.mono hei⟩,
        fun _ => ⟨fun p hp hl => IH p (hp.trans hci) ?_, PrefixInQuery.mono hci⟩⟩
      · have h1 := hp.length_le
        have h2 := hok.lt hs
        have h3 := hsuf.length_le
        omega
      · have h1 := hok.comp.length_le
        have h3 := hsuf.length_le
        omega
    rw [get_eq, getBody]
    refine Fine.bind ?_ ?_
    · rw [getFirst_eq]
      simp only
      split
      · exact gArr_fine hN
      split
      · rename_i hm
        rw [modExec_eq hok hm]
        exact Fine.bind (.of (modApply_ok _ _ _)) (fun _ _ => .ok _)
      split
      · rename_i hm
        refine multiExec_fine hm (fun p hp hl => IH p (hp.trans hci) ?_)
        have h1 := hok.comp.length_le
        have h3 := hsuf.length_le
        omega
      · exact gStart_fine hN
    · intro x hx
      obtain ⟨res, p⟩ := x
      simp only
      split
      · exact .ok _
      · rename_i hm
        have hsep : p.sep ≠ 0 := by simpa [Path.more] using hm
        exact getIn_fine (IH _ (getFirst_within hx) (getFirst_rest hx hsep))

end Gjson
