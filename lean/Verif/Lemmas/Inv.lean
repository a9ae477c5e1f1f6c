import Verif.Lemmas.Flow
import Verif.Lemmas.Cut
import Verif.Lemmas.Prov
import Verif.Lemmas.Total
/-
Properties of texts that every result of `get` inherits from the text searched.
-/
namespace Gjson
open Spec

/-- What is needed for `D` of the text and `P` of the path to give `R` of every result. -/
structure Inv (D R P : Bytes → Prop) : Prop where
  flow : ∀ {j}, D j → Flow j
  nil : D []
  doc : ∀ {r}, R r → D r
  part : ∀ {j w}, D j → IsValue w → w <:+: j → R w
  count : ∀ n, R (natDec n)
  array : ∀ {vs : List Bytes}, (∀ v ∈ vs, R v) → R (arrayText vs)
  object : ∀ {ms : List (Bytes × Bytes)}, (∀ m ∈ ms, P m.1 ∧ R m.2) → R (objectText (ms.map fun m => (jsonString m.1, m.2)))
  cut : ∀ {p q}, P p → Cut p q → P q
  under : P b!"_"
  mod : ∀ {path j out : Bytes}, P path → D j → (pNext path).isModifier = true →
    modApply get (modName (pNext path)) j (modArg (pNext path)) = .ok out → (pParse 0 out).exists = true → R (pParse 0 out).json

/-- A result that is as good as it should be. -/
def Ok' (R : Bytes → Prop) (v : Value) : Prop := v.exists = true → R v.json

theorem ok'_default (R : Bytes → Prop) : Ok' R Value.default := by intro h; exact absurd h (by decide)

/-- The claim for one path. -/
def Good (D R : Bytes → Prop) (path : Bytes) : Prop := ∀ json v, D json → get json path = .ok v → Ok' R v

theorem collectR_all {Q : Value → Prop} {f : Value → Res (Option Value)} : ∀ {vals l : List Value},
    (∀ v ∈ vals, ∀ w, f v = .ok (some w) → Q w) → collectR f vals = .ok l → ∀ w ∈ l, Q w
  | [], l, _, h, w, hw => by simp [collectR] at h; subst h; simp at hw
  | v :: r, l, hf, h, w, hw => by
    unfold collectR at h
    obtain ⟨o, h1, h⟩ := bind_eq_ok.1 h
    obtain ⟨l', h2, h⟩ := bind_eq_ok.1 h
    cases h
    rcases List.mem_append.1 hw with hw | hw
    · cases o with
      | none => simp at hw
      | some x => simp at hw; subst hw; exact hf v (by simp) _ h1
    · exact collectR_all (fun u hu => hf u (by simp [hu])) h2 w hw

section
variable {D R P : Bytes → Prop} (I : Inv D R P)
include I

theorem Inv.okDoc {v : Value} (h : Ok' R v) : D v.json := by
  cases he : v.exists with
  | true => exact I.doc (h he)
  | false =>
    have : v.json = [] := by
      unfold Value.exists at he
      cases hj : v.json with
      | nil => rfl
      | cons a b => rw [hj] at he; simp at he
    rw [this]; exact I.nil

theorem Inv.getIn {v w : Value} {path : Bytes} (hv : OneText v) (hr : Ok' R v) (hg : Good D R path)
    (h : Gjson.getIn get v path = .ok w) : Ok' R w := by
  have hs := getIn_same hv path
  rw [h] at hs
  generalize hx : get v.json path = x at hs
  cases hs with
  | @ok _ b hs =>
    have := hg _ _ (I.okDoc hr) hx
    intro he
    have hj : w.json = b.json := hs.json
    unfold Ok' Value.exists at this
    unfold Value.exists at he
    rw [hj] at he ⊢
    exact this he

omit I in
theorem existing_all {l : List Value} (h : ∀ v ∈ l, Ok' R v) : ∀ t ∈ existing l, R t := by
  intro t ht
  unfold Gjson.existing at ht
  obtain ⟨v, hv, rfl⟩ := List.mem_map.1 ht
  obtain ⟨h1, h2⟩ := List.mem_filter.1 hv
  exact h v h1 h2

theorem Inv.arrayOf {l : List Value} (h : ∀ v ∈ l, Ok' R v) : Ok' R (arrayOf l) := by
  intro _
  unfold Gjson.arrayOf
  rw [mkOwned_json, joinComma_eq]
  exact I.array (existing_all h)

theorem Inv.whole {s : Bytes} (hs : ∃ j, D j ∧ s <:+: j) {v : Value} (h : Whole s v) : Ok' R v := by
  obtain ⟨j, hj, hs⟩ := hs
  intro he
  exact I.part hj (h he).1 ((h he).2.trans hs)

theorem Inv.gArrVals {n : Nat} {p0 : Bytes} (hP : P p0) (ih : ∀ q, q.length < n → P q → Good D R q)
    {path : Path} (hc : CutRest p0 path) (hr : path.sep ≠ 0 → path.extra.length < n)
    {vals : List Value} (hv : ∀ v ∈ vals, Ok' R v ∧ OneText v) {x : Value × Path}
    (h : gArrVals get path vals = .ok x) : Ok' R x.1 := by
  have hidx : ∀ k : Int, Ok' R (if k < 0 then Value.default else vals.getD k.toNat Value.default) := by
    intro k
    split
    · exact ok'_default _
    · rw [List.getD_eq_getElem?_getD]
      cases hk : vals[k.toNat]? with
      | none => exact ok'_default _
      | some v => exact (hv v (List.mem_of_getElem? hk)).1
  have hg : path.sep = c! '.' → ∀ v ∈ vals, ∀ w, Gjson.getIn get v (pGroup path).1 = .ok w → Ok' R w := by
    intro hs v hvv w hw
    have h0 : path.sep ≠ 0 := by rw [hs]; decide
    have hcut := pGroup_cut path hs
    refine I.getIn (hv v hvv).2 (hv v hvv).1 (ih _ ?_ (I.cut hP ((hc h0).trans hcut.1))) hw
    have := (pGroup_ok path hs).pre.length_le
    have := hr h0
    omega
  unfold Gjson.gArrVals at h
  simp only at h
  split at h
  · cases h; exact hidx _
  · split at h
    · split at h
      · split at h
        · rename_i hs
          obtain ⟨l, h1, h2⟩ := bind_eq_ok.1 h
          cases h2
          refine I.arrayOf (collectR_all ?_ h1)
          intro v hvv w hw
          obtain ⟨w', h3, h4⟩ := bind_eq_ok.1 hw
          cases h4
          exact hg hs v hvv w h3
        · cases h
          intro _
          rw [mkOwned_json]
          exact I.count _
      · split at h
        · obtain ⟨l, h1, h2⟩ := bind_eq_ok.1 h
          cases h2
          refine I.arrayOf (collectR_all ?_ h1)
          intro v hvv w hw
          obtain ⟨b, _, hw⟩ := bind_eq_ok.1 hw
          split at hw
          · split at hw
            · rename_i hs
              obtain ⟨w', h3, h4⟩ := bind_eq_ok.1 hw
              cases h4
              exact hg hs v hvv w h3
            · cases hw; exact (hv v hvv).1
          · simp at hw
        · obtain ⟨l, h1, h2⟩ := bind_eq_ok.1 h
          cases h2
          rcases findR_exists h1 with h3 | h3
          · exact (hv _ h3).1
          · rw [h3]; exact ok'_default _
    · cases h; exact hidx _

omit I in
theorem eachToks_whole (i : Nat) (lines : Bool) {s : Bytes} (h : Flow s) (hh : lines = false → ∃ c r, s = c :: r ∧ c = c! '[') :
    ∀ v ∈ eachToks i lines s, Whole s v := by
  unfold eachToks
  split
  · exact toks_whole _ h
  · rename_i hl
    obtain ⟨c, r, rfl, hc⟩ := hh (by simpa using hl)
    intro v hv
    exact (toks_whole _ (h.enter (.inr hc)) v hv).mono (List.suffix_cons c r).isInfix

theorem Inv.gArr {n : Nat} {p0 : Bytes} (hP : P p0) (ih : ∀ q, q.length < n → P q → Good D R q)
    {path : Path} (hc : CutRest p0 path) (hr : path.sep ≠ 0 → path.extra.length < n)
    {j s : Bytes} (hj : D j) (hs : s <:+: j) (hf : Flow s) {L : Nat} {lines : Bool}
    (hh : lines = false → ∃ c r, s = c :: r ∧ c = c! '[') {x : Value × Path}
    (h : gArr get L lines path s = .ok x) : Ok' R x.1 := by
  unfold Gjson.gArr at h
  refine I.gArrVals hP ih hc hr (fun v hv => ⟨I.whole ⟨j, hj, hs⟩ (eachToks_whole _ _ hf hh v hv), ?_⟩) h
  exact (eachToks_prov _ _ _ v hv).oneText


theorem Inv.gObj {n : Nat} {p0 : Bytes} (hP : P p0) (ih : ∀ q, q.length < n → P q → Good D R q) {j : Bytes} (hj : D j) {L : Nat} :
    ∀ (k : Nat) {path : Path}, pathRank path < k → CutRest p0 path → (path.sep ≠ 0 → path.extra.length < n) →
    ∀ {s : Bytes} {x : Value × Path}, Flow s → s <:+: j → gObj get L path s = .ok x → Ok' R x.1
  | 0, _, h, _, _, _, _, _, _, _ => by omega
  | k + 1, path, hk, hc, hr, s, x, hf, hs, h => by
    rw [gObj.eq_def] at h
    cases s with
    | nil => cases h; exact ok'_default _
    | cons c r =>
      simp only at h
      split at h
      · cases h; exact ok'_default _
      · rename_i hcc
        have hcc : c = c! '{' := by simpa using hcc
        have hs' : r <:+: j := (List.suffix_cons c r).isInfix.trans hs
        refine gObjLoop_whole (Q := Ok' R) L r (hf.enter (.inl hcc)) (fun v hv => I.whole ⟨j, hj, hs'⟩ hv) ?_ x h
        intro c' r' hsuf hf' hc' y hd hy
        rw [dif_pos hd] at hy
        have hrank := pathRank_next hd
        have h0 : path.sep ≠ 0 := by
          have : path.sep = c! '.' := by unfold Path.dives at hd; simp at hd; exact hd.1.1
          rw [this]; decide
        have hr' : (pNext path.extra).sep ≠ 0 → (pNext path.extra).extra.length < n := by
          intro h1
          have := (pNext_ok path.extra).lt h1
          have := hr h0
          omega
        split at hy
        · exact Inv.gObj hP ih hj k (by omega) (cutRest_next hc hd) hr' hf' (hsuf.isInfix.trans hs') hy
        · rename_i hne
          refine I.gArr hP ih (cutRest_next hc hd) hr' hj (hsuf.isInfix.trans hs') hf' (fun _ => ⟨c', r', rfl, ?_⟩) hy
          simpa [show ¬ c' = c! '{' by simpa using hne] using hc'

theorem Inv.gStart {n : Nat} {p0 : Bytes} (hP : P p0) (ih : ∀ q, q.length < n → P q → Good D R q) {j : Bytes} (hj : D j) {L : Nat}
    {path : Path} (hc : CutRest p0 path) (hr : path.sep ≠ 0 → path.extra.length < n) :
    ∀ {s : Bytes} {x : Value × Path}, Flow s → s <:+: j → gStart get L path s = .ok x → Ok' R x.1
  | [], x, _, _, h => by cases h; exact ok'_default _
  | c :: r, x, hf, hs, h => by
    unfold Gjson.gStart at h
    split at h
    · rename_i hw
      exact Inv.gStart hP ih hj hc hr (hf.skipWs (.inl hw)) ((List.suffix_cons c r).isInfix.trans hs) h
    split at h
    · exact I.gObj hP ih hj _ (Nat.lt_succ_self _) hc hr hf hs h
    split at h
    · rename_i hb
      exact I.gArr hP ih hc hr hj hs hf (fun _ => ⟨c, r, rfl, hb⟩) h
    · cases h; exact ok'_default _

theorem Inv.multi {n : Nat} {p0 : Bytes} (hP : P p0) (ih : ∀ q, q.length < n → P q → Good D R q) {j : Bytes} (hj : D j)
    {path : Path} (hm : path.isMultipath = true) (hc : Cut p0 path.comp) (hl : path.comp.length ≤ n) {x : Value × Path}
    (h : multiExec get j path = .ok x) : Ok' R x.1 := by
  have inner : ∀ {q : Bytes}, slice path.comp 1 (path.comp.length - 1) = .ok q → idx path.comp 0 = .ok (c! '[') ∨ idx path.comp 0 = .ok (c! '{') →
      idx path.comp (path.comp.length - 1) = .ok (c! ']') ∨ idx path.comp (path.comp.length - 1) = .ok (c! '}') →
      q.length < n ∧ Cut p0 q := by
    intro q hq h1 h2
    have h1' : EdgeAt path.comp 1 := by rcases h1 with h1 | h1 <;> exact (edgeAt_of h1 (by decide)).2
    have h2' : EdgeAt path.comp (path.comp.length - 1) := by rcases h2 with h2 | h2 <;> exact (edgeAt_of h2 (by decide)).1
    have h3 := slice_len hq
    exact ⟨by omega, hc.trans (cut_slice h1' h2' hq)⟩
  have hclosed : ∀ {cls : UInt8} {b : Bool}, unclosed path.comp cls = .ok b → b = false →
      idx path.comp (path.comp.length - 1) = .ok cls := by
    intro cls b hu hb
    unfold unclosed at hu
    split at hu
    · simp [rpanic] at hu
    · obtain ⟨c, h1, h2⟩ := bind_eq_ok.1 hu
      simp only [Except.ok.injEq] at h2
      rw [hb] at h2
      have : c = cls := by simpa using h2
      rw [← this]; exact h1
  unfold multiExec at h
  obtain ⟨a, ha, h⟩ := bind_eq_ok.1 h
  split at h
  · rename_i haa
    subst haa
    unfold execArr at h
    obtain ⟨b, hb, h⟩ := bind_eq_ok.1 h
    split at h
    · cases h; exact ok'_default _
    · rename_i hb0
      have hcl := hclosed hb (by simpa using hb0)
      obtain ⟨⟨out, m⟩, h1, h2⟩ := bind_eq_ok.1 h
      unfold eachComp at h1
      split at h1
      · simp [rpanic] at h1
      · obtain ⟨q, hq, h1⟩ := bind_eq_ok.1 h1
        obtain ⟨hql, hqc⟩ := inner hq (.inl ha) (.inl hcl)
        have := eachCompLoop_cut (P := fun st : Bytes × Nat => ∃ done : List Value, (∀ v ∈ done, Ok' R v) ∧
            st = (c! '[' :: joinComma (existing done), (existing done).length)) (by
          rintro st k p st' ⟨done, hd, rfl⟩ _ hp hf
          obtain ⟨res, hres, hf⟩ := bind_eq_ok.1 hf
          cases hf
          refine ⟨done ++ [res], ?_, pushValue_snoc done res⟩
          intro v hv
          rcases List.mem_append.1 hv with hv | hv
          · exact hd v hv
          · simp at hv; subst hv
            have := hp.infix.length_le
            exact ih p (by omega) (I.cut hP (hqc.trans hp)) _ _ hj hres)
          _ _ _ _ _ _ ⟨[], by simp, rfl⟩ (.zero _) (by simp) h1
        obtain ⟨done, hd, he⟩ := this
        cases he
        simp only at h2
        rw [jsonFromOwned_eq] at h2
        cases h2
        have := I.arrayOf hd
        unfold Gjson.arrayOf at this
        simpa using this
  · rename_i haa
    unfold execObj at h
    obtain ⟨b, hb, h⟩ := bind_eq_ok.1 h
    split at h
    · cases h; exact ok'_default _
    · rename_i hb0
      have hcl := hclosed hb (by simpa using hb0)
      obtain ⟨⟨out, m⟩, h1, h2⟩ := bind_eq_ok.1 h
      unfold eachComp at h1
      split at h1
      · simp [rpanic] at h1
      · obtain ⟨q, hq, h1⟩ := bind_eq_ok.1 h1
        obtain ⟨hql, hqc⟩ := inner hq (.inr (by
          unfold Path.isMultipath at hm
          cases hcomp : path.comp with
          | nil => rw [hcomp] at hm; simp at hm
          | cons c t =>
            rw [hcomp] at hm ha
            have h0 : a = c := by
              have := (At.zero (c :: t)).idx
              rw [this] at ha; cases ha; rfl
            subst h0
            have : a = c! '{' := by simpa [haa] using hm
            rw [ha, this])) (.inr hcl)
        have := eachCompLoop_cut (P := fun st : Bytes × Nat => ∃ done : List (Bytes × Value), (∀ v ∈ done, P v.1 ∧ Ok' R v.2) ∧
            st = (c! '{' :: joinComma ((members done).map memberText), (members done).length)) (by
          rintro st k p st' ⟨done, hd, rfl⟩ hk hp hf
          obtain ⟨res, hres, hf⟩ := bind_eq_ok.1 hf
          cases hf
          refine ⟨done ++ [(k, res)], ?_, pushMember_snoc done k res⟩
          intro v hv
          rcases List.mem_append.1 hv with hv | hv
          · exact hd v hv
          · simp at hv; subst hv
            have := hp.infix.length_le
            refine ⟨?_, ih p (by omega) (I.cut hP (hqc.trans hp)) _ _ hj hres⟩
            rcases hk with hk | rfl
            · exact I.cut hP (hqc.trans hk)
            · exact I.under)
          _ _ _ _ _ _ ⟨[], by simp, rfl⟩ (.zero _) (by simp) h1
        obtain ⟨done, hd, he⟩ := this
        cases he
        simp only at h2
        rw [jsonFromOwned_eq] at h2
        cases h2
        intro _
        rw [mkOwned_json, joinComma_eq]
        have := I.object (ms := (done.filter (·.2.exists)).map fun kv => (kv.1, kv.2.json)) (by
          intro m hm
          obtain ⟨kv, h3, rfl⟩ := List.mem_map.1 hm
          obtain ⟨h4, h5⟩ := List.mem_filter.1 h3
          exact ⟨(hd kv h4).1, (hd kv h4).2 h5⟩)
        unfold objectText at this
        simpa [members, memberText, Function.comp_def] using this


/-- Every result of `get` has the property. -/
theorem Inv.get {path : Bytes} (hP : P path) : Good D R path := by
  generalize hn : path.length = n
  induction n using Nat.strongRecOn generalizing path with
  | ind n ih =>
    have ih : ∀ q, q.length < n → P q → Good D R q := fun q hq hp => ih _ hq hp rfl
    intro json v hj h
    rw [get_eq, getBody] at h
    obtain ⟨⟨res, p⟩, h1, h2⟩ := bind_eq_ok.1 h
    simp only at h2
    have hlp := linesPrefix_cut path
    have hll := hlp.infix.length_le
    have hc : CutRest path (pNext (linesPrefix path).1) := fun hx => hlp.trans (pNext_rest _ hx)
    have hr : (pNext (linesPrefix path).1).sep ≠ 0 → (pNext (linesPrefix path).1).extra.length < n := by
      intro hx
      have := (pNext_ok (linesPrefix path).1).lt hx
      omega
    have hres : Ok' R res := by
      have h3 := h1
      rw [getFirst_eq] at h3
      simp only at h3
      split at h3
      · rename_i hl
        exact I.gArr hP ih hc hr hj (List.infix_refl _) (I.flow hj) (by simp) h3
      split at h3
      · rename_i hm
        have hok := pNext_ok (linesPrefix path).1
        rw [modExec_eq hok hm] at h3
        obtain ⟨out, h4, h5⟩ := bind_eq_ok.1 h3
        cases h5
        intro he
        have hone := pParse_oneText out 0
        have hj' := jsonIntoOwned_json hone
        unfold Value.exists at he
        rw [hj'] at he ⊢
        exact I.mod (I.cut hP hlp) hj hm h4 he
      split at h3
      · rename_i hm
        have := (pNext_ok (linesPrefix path).1).comp.length_le
        exact I.multi hP ih hj hm (hlp.trans (pNext_cut _)) (by omega) h3
      · exact I.gStart hP ih hj hc hr (I.flow hj) (List.infix_refl _) h3
    split at h2
    · cases h2; exact hres
    · rename_i hm
      have hsep : p.sep ≠ 0 := by simpa [Path.more] using hm
      have hlt := getFirst_rest h1 hsep
      have hcut := getFirst_cut h1 hsep
      simp only at hlt hcut
      exact I.getIn (getFirst_prov h1).oneText hres (ih _ (by omega) (I.cut hP hcut)) h2

end

end Gjson
