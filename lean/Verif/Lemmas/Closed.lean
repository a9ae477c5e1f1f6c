import Verif.Lemmas.Inv
import Verif.Lemmas.Piece
/-
Properties of texts that all parts of a text have, and all texts put together from them:
every result of `get` has them, whatever the text.
-/
namespace Gjson
open Spec

/-- What is needed for `D` of the text and `P` of the path to give `D` of every result. -/
structure Closed (D P : Bytes → Prop) : Prop where
  nil : D []
  part : ∀ {j w}, D j → w <:+: j → D w
  count : ∀ n, D (natDec n)
  array : ∀ {vs : List Bytes}, (∀ v ∈ vs, D v) → D (arrayText vs)
  object : ∀ {ms : List (Bytes × Bytes)}, (∀ m ∈ ms, P m.1 ∧ D m.2) → D (objectText (ms.map fun m => (jsonString m.1, m.2)))
  cut : ∀ {p q}, P p → Cut p q → P q
  under : P b!"_"
  mod : ∀ {path j out : Bytes}, P path → D j → (pNext path).isModifier = true →
    modApply get (modName (pNext path)) j (modArg (pNext path)) = .ok out → D out

/-- The same for properties that only the parts found by the search have: `D` of a text gives
`D` of what is found in it. -/
structure Closes (D P : Bytes → Prop) : Prop where
  nil : D []
  blank : ∀ {c r}, D (c :: r) → c ≤ c! ' ' → D r
  elems : ∀ {s i lines}, D s → (lines = true ∨ s.head? = some (c! '[')) → ∀ v ∈ eachToks i lines s, D v.json
  obj : ∀ {r : Bytes} {d : Bytes → Res (Value × Path)} {p : Path} {L : Nat} {x : Value × Path}, D (c! '{' :: r) →
    (∀ c t, D (c :: t) → (c = c! '{' ∨ c = c! '[') → ∀ x, p.dives = true → d (c :: t) = .ok x → D x.1.json) →
    gObjLoop d L p r = .ok x → D x.1.json
  count : ∀ n, D (natDec n)
  array : ∀ {vs : List Bytes}, (∀ v ∈ vs, D v) → D (arrayText vs)
  object : ∀ {ms : List (Bytes × Bytes)}, (∀ m ∈ ms, P m.1 ∧ D m.2) → D (objectText (ms.map fun m => (jsonString m.1, m.2)))
  cut : ∀ {p q}, P p → Cut p q → P q
  under : P b!"_"
  mod : ∀ {path j out : Bytes}, P path → D j → (pNext path).isModifier = true →
    modApply get (modName (pNext path)) j (modArg (pNext path)) = .ok out → D (pParse 0 out).json

/-- The claim for one path. -/
def Holds (D : Bytes → Prop) (path : Bytes) : Prop := ∀ json v, D json → get json path = .ok v → D v.json

theorem pParse_infix : ∀ (i : Nat) (s : Bytes), (pParse i s).json <:+: s
  | _, [] => List.infix_refl _
  | i, c :: r => by
    unfold pParse
    split
    · exact (pParse_infix (i + 1) r).trans (List.suffix_cons c r).isInfix
    split
    · rw [mkVal_json]; exact List.infix_refl _
    split
    · rw [mkVal_json]; exact List.infix_refl _
    split
    · have := tok_piece i (c :: r)
      rw [this.json]; exact this.2.1
    · exact List.nil_infix

theorem gObjLoop_any {Q : Value → Prop} {d : Bytes → Res (Value × Path)} {p : Path} (L : Nat) :
    ∀ (s : Bytes), (∀ v, Piece s v → Q v) →
      (∀ c t, c :: t <:+ s → (c = c! '{' ∨ c = c! '[') → ∀ x, p.dives = true → d (c :: t) = .ok x → Q x.1) →
      ∀ x, gObjLoop d L p s = .ok x → Q x.1 := by
  intro s
  generalize hn : s.length = n
  induction n using Nat.strongRecOn generalizing s with
  | ind n ih =>
    intro hq' hd x h
    cases s with
    | nil => rw [gObjLoop_nil] at h; cases h; exact hq' _ (piece_default _)
    | cons c r =>
      have next : ∀ t, t <:+ c :: r → t.length < n → gObjLoop d L p t = .ok x → Q x.1 := by
        intro t ht hl hx
        exact ih t.length hl t rfl (fun v hv => hq' v (hv.mono ht.isInfix)) (fun k u hu => hd k u (hu.trans ht)) x hx
      by_cases h1 : c = c! '}'
      · subst h1; rw [gObjLoop_close] at h; cases h; exact hq' _ (piece_default _)
      by_cases h2 : c = c! '"'
      · subst h2
        cases hq : qStr r with
        | none => rw [gObjLoop_nokey _ _ _ hq] at h; cases h; exact hq' _ (piece_default _)
        | some y =>
          obtain ⟨b, f, q⟩ := y
          have hql := qStr_lt hq
          have hqs : q <:+ r := ⟨b, (qStr_append hq).symm⟩
          cases hv : pSkipColon q with
          | nil => rw [gObjLoop_noval _ _ _ hq hv] at h; cases h; exact hq' _ (piece_default _)
          | cons c2 r2 =>
            have hle := pSkipColon_le q
            have hss : c2 :: r2 <:+ c! '"' :: r := (hv ▸ pSkipColon_suffix q).trans (hqs.trans (List.suffix_cons _ _))
            have hlt : (c2 :: r2).length < n := by rw [hv] at hle; simp only [List.length_cons] at hn hle ⊢; omega
            have hts := (leafTok_suffix (s := c2 :: r2) (by simp)).trans hss
            have htl : (leafTok (c2 :: r2)).2.length < n := by
              have := leafTok_lt (s := c2 :: r2) (by simp); omega
            have hp : Q (tokVal (L - (c2 :: r2).length) (leafTok (c2 :: r2)).1) :=
              hq' _ ((tok_piece _ _).mono hss.isInfix)
            rw [gObjLoop_key _ _ _ hq hv] at h
            split at h
            · split at h
              · rename_i hdv
                obtain ⟨⟨res, p'⟩, h3, h4⟩ := bind_eq_ok.1 h
                simp only at h4
                split at h4
                · cases h4; exact hd _ _ hss hdv.2 _ hdv.1 h3
                · exact next _ hss hlt h4
              · split at h
                · cases h; exact hp
                · exact next _ hts htl h
            · exact next _ hts htl h
      · rw [gObjLoop_skip _ _ _ _ h1 h2] at h
        exact next r (List.suffix_cons _ _) (by simp at hn; omega) h

theorem Closed.closes {D P : Bytes → Prop} (I : Closed D P) : Closes D P where
  nil := I.nil
  blank h _ := I.part h (List.suffix_cons _ _).isInfix
  elems h _ v hv := by
    have := eachToks_piece _ _ _ v hv
    rw [this.json]
    exact I.part h this.2.1
  obj {r d p L x} h hd hx := by
    refine gObjLoop_any (Q := fun v => D v.json) L r (fun v hv => ?_) ?_ x hx
    · rw [hv.json]
      exact I.part h (hv.2.1.trans (List.suffix_cons _ _).isInfix)
    · intro c t ht hc y hdv hy
      exact hd c t (I.part h (ht.isInfix.trans (List.suffix_cons _ _).isInfix)) hc y hdv hy
  count := I.count
  array := I.array
  object := I.object
  cut := I.cut
  under := I.under
  mod h1 h2 h3 h4 := I.part (I.mod h1 h2 h3 h4) (pParse_infix 0 _)

section
variable {D P : Bytes → Prop} (I : Closes D P)
include I

theorem Closes.default : D Value.default.json := I.nil

omit I in
theorem Closes.getIn {v w : Value} {path : Bytes} (hv : OneText v) (hr : D v.json) (hg : Holds D path)
    (h : Gjson.getIn get v path = .ok w) : D w.json := by
  have hs := getIn_same hv path
  rw [h] at hs
  generalize hx : get v.json path = x at hs
  cases hs with
  | @ok _ b hs =>
    have := hg _ _ hr hx
    rwa [hs.json]

theorem Closes.arrayOf {l : List Value} (h : ∀ v ∈ l, D v.json) : D (arrayOf l).json := by
  unfold Gjson.arrayOf
  rw [mkOwned_json, joinComma_eq]
  refine I.array fun t ht => ?_
  unfold Gjson.existing at ht
  obtain ⟨v, hv, rfl⟩ := List.mem_map.1 ht
  exact h v (List.mem_filter.1 hv).1

theorem Closes.gArrVals {n : Nat} {p0 : Bytes} (hP : P p0) (ih : ∀ q, q.length < n → P q → Holds D q)
    {path : Path} (hc : CutRest p0 path) (hr : path.sep ≠ 0 → path.extra.length < n)
    {vals : List Value} (hv : ∀ v ∈ vals, D v.json ∧ OneText v) {x : Value × Path}
    (h : gArrVals get path vals = .ok x) : D x.1.json := by
  have hidx : ∀ k : Int, D (if k < 0 then Value.default else vals.getD k.toNat Value.default).json := by
    intro k
    split
    · exact I.nil
    · rw [List.getD_eq_getElem?_getD]
      cases hk : vals[k.toNat]? with
      | none => exact I.nil
      | some v => exact (hv v (List.mem_of_getElem? hk)).1
  have hg : path.sep = c! '.' → ∀ v ∈ vals, ∀ w, Gjson.getIn get v (pGroup path).1 = .ok w → D w.json := by
    intro hs v hvv w hw
    have h0 : path.sep ≠ 0 := by rw [hs]; decide
    have hcut := pGroup_cut path hs
    refine Closes.getIn (hv v hvv).2 (hv v hvv).1 (ih _ ?_ (I.cut hP ((hc h0).trans hcut.1))) hw
    have := (pGroup_ok path hs).pre.length_le
    have := hr h0
    omega
  unfold Gjson.gArrVals at h
  simp only at h
  split at h
  · cases h; exact hidx _
  · split at h
    · split at h
      · split at h
        · rename_i hs
          obtain ⟨l, h1, h2⟩ := bind_eq_ok.1 h
          cases h2
          refine I.arrayOf (collectR_all ?_ h1)
          intro v hvv w hw
          obtain ⟨w', h3, h4⟩ := bind_eq_ok.1 hw
          cases h4
          exact hg hs v hvv w h3
        · cases h
          rw [mkOwned_json]
          exact I.count _
      · split at h
        · obtain ⟨l, h1, h2⟩ := bind_eq_ok.1 h
          cases h2
          refine I.arrayOf (collectR_all ?_ h1)
          intro v hvv w hw
          obtain ⟨b, _, hw⟩ := bind_eq_ok.1 hw
          split at hw
          · split at hw
            · rename_i hs
              obtain ⟨w', h3, h4⟩ := bind_eq_ok.1 hw
              cases h4
              exact hg hs v hvv w h3
            · cases hw; exact (hv v hvv).1
          · simp at hw
        · obtain ⟨l, h1, h2⟩ := bind_eq_ok.1 h
          cases h2
          rcases findR_exists h1 with h3 | h3
          · exact (hv _ h3).1
          · rw [h3]; exact I.nil
    · cases h; exact hidx _


theorem Closes.gArr {n : Nat} {p0 : Bytes} (hP : P p0) (ih : ∀ q, q.length < n → P q → Holds D q)
    {path : Path} (hc : CutRest p0 path) (hr : path.sep ≠ 0 → path.extra.length < n)
    {s : Bytes} (hs : D s) {L : Nat} {lines : Bool} (hl : lines = true ∨ s.head? = some (c! '[')) {x : Value × Path}
    (h : gArr get L lines path s = .ok x) : D x.1.json := by
  unfold Gjson.gArr at h
  exact I.gArrVals hP ih hc hr (fun v hv => ⟨I.elems hs hl v hv, (eachToks_prov _ _ _ v hv).oneText⟩) h

theorem Closes.gObj {n : Nat} {p0 : Bytes} (hP : P p0) (ih : ∀ q, q.length < n → P q → Holds D q) {L : Nat} :
    ∀ (k : Nat) {path : Path}, pathRank path < k → CutRest p0 path → (path.sep ≠ 0 → path.extra.length < n) →
    ∀ {s : Bytes} {x : Value × Path}, D s → gObj get L path s = .ok x → D x.1.json
  | 0, _, h, _, _, _, _, _, _ => by omega
  | k + 1, path, hk, hc, hr, s, x, hs, h => by
    rw [gObj.eq_def] at h
    cases s with
    | nil => cases h; exact I.nil
    | cons c r =>
      simp only at h
      split at h
      · cases h; exact I.nil
      · rename_i hcc
        have hcc : c = c! '{' := by simpa using hcc
        subst hcc
        refine I.obj hs ?_ h
        intro c t ht hct y hd hy
        rw [dif_pos hd] at hy
        have hrank := pathRank_next hd
        have h0 : path.sep ≠ 0 := by
          have : path.sep = c! '.' := by unfold Path.dives at hd; simp at hd; exact hd.1.1
          rw [this]; decide
        have hr' : (pNext path.extra).sep ≠ 0 → (pNext path.extra).extra.length < n := by
          intro h1
          have := (pNext_ok path.extra).lt h1
          have := hr h0
          omega
        split at hy
        · exact Closes.gObj hP ih k (by omega) (cutRest_next hc hd) hr' ht hy
        · rename_i hne
          refine I.gArr hP ih (cutRest_next hc hd) hr' ht (.inr ?_) hy
          rcases hct with rfl | rfl
          · simp at hne
          · rfl

theorem Closes.gStart {n : Nat} {p0 : Bytes} (hP : P p0) (ih : ∀ q, q.length < n → P q → Holds D q) {L : Nat}
    {path : Path} (hc : CutRest p0 path) (hr : path.sep ≠ 0 → path.extra.length < n) :
    ∀ {s : Bytes} {x : Value × Path}, D s → gStart get L path s = .ok x → D x.1.json
  | [], x, _, h => by cases h; exact I.nil
  | c :: r, x, hs, h => by
    unfold Gjson.gStart at h
    split at h
    · rename_i hb
      exact Closes.gStart hP ih hc hr (I.blank hs hb) h
    split at h
    · exact I.gObj hP ih _ (Nat.lt_succ_self _) hc hr hs h
    split at h
    · rename_i hb
      exact I.gArr hP ih hc hr hs (.inr (by rw [hb]; rfl)) h
    · cases h; exact I.nil

theorem Closes.multi {n : Nat} {p0 : Bytes} (hP : P p0) (ih : ∀ q, q.length < n → P q → Holds D q) {j : Bytes} (hj : D j)
    {path : Path} (hm : path.isMultipath = true) (hc : Cut p0 path.comp) (hl : path.comp.length ≤ n) {x : Value × Path}
    (h : multiExec get j path = .ok x) : D x.1.json := by
  have inner : ∀ {q : Bytes}, slice path.comp 1 (path.comp.length - 1) = .ok q → idx path.comp 0 = .ok (c! '[') ∨ idx path.comp 0 = .ok (c! '{') →
      idx path.comp (path.comp.length - 1) = .ok (c! ']') ∨ idx path.comp (path.comp.length - 1) = .ok (c! '}') →
      q.length < n ∧ Cut p0 q := by
    intro q hq h1 h2
    have h1' : EdgeAt path.comp 1 := by rcases h1 with h1 | h1 <;> exact (edgeAt_of h1 (by decide)).2
    have h2' : EdgeAt path.comp (path.comp.length - 1) := by rcases h2 with h2 | h2 <;> exact (edgeAt_of h2 (by decide)).1
    have h3 := slice_len hq
    exact ⟨by omega, hc.trans (cut_slice h1' h2' hq)⟩
  have hclosed : ∀ {cls : UInt8} {b : Bool}, unclosed path.comp cls = .ok b → b = false →
      idx path.comp (path.comp.length - 1) = .ok cls := by
    intro cls b hu hb
    unfold unclosed at hu
    split at hu
    · simp [rpanic] at hu
    · obtain ⟨c, h1, h2⟩ := bind_eq_ok.1 hu
      simp only [Except.ok.injEq] at h2
      rw [hb] at h2
      have : c = cls := by simpa using h2
      rw [← this]; exact h1
  unfold multiExec at h
  obtain ⟨a, ha, h⟩ := bind_eq_ok.1 h
  split at h
  · rename_i haa
    subst haa
    unfold execArr at h
    obtain ⟨b, hb, h⟩ := bind_eq_ok.1 h
    split at h
    · cases h; exact I.nil
    · rename_i hb0
      have hcl := hclosed hb (by simpa using hb0)
      obtain ⟨⟨out, m⟩, h1, h2⟩ := bind_eq_ok.1 h
      unfold eachComp at h1
      split at h1
      · simp [rpanic] at h1
      · obtain ⟨q, hq, h1⟩ := bind_eq_ok.1 h1
        obtain ⟨hql, hqc⟩ := inner hq (.inl ha) (.inl hcl)
        have := eachCompLoop_cut (P := fun st : Bytes × Nat => ∃ done : List Value, (∀ v ∈ done, D v.json) ∧
            st = (c! '[' :: joinComma (existing done), (existing done).length)) (by
          rintro st k p st' ⟨done, hd, rfl⟩ _ hp hf
          obtain ⟨res, hres, hf⟩ := bind_eq_ok.1 hf
          cases hf
          refine ⟨done ++ [res], ?_, pushValue_snoc done res⟩
          intro v hv
          rcases List.mem_append.1 hv with hv | hv
          · exact hd v hv
          · simp at hv; subst hv
            have := hp.infix.length_le
            exact ih p (by omega) (I.cut hP (hqc.trans hp)) _ _ hj hres)
          _ _ _ _ _ _ ⟨[], by simp, rfl⟩ (.zero _) (by simp) h1
        obtain ⟨done, hd, he⟩ := this
        cases he
        simp only at h2
        rw [jsonFromOwned_eq] at h2
        cases h2
        have := I.arrayOf hd
        unfold Gjson.arrayOf at this
        simpa using this
  · rename_i haa
    unfold execObj at h
    obtain ⟨b, hb, h⟩ := bind_eq_ok.1 h
    split at h
    · cases h; exact I.nil
    · rename_i hb0
      have hcl := hclosed hb (by simpa using hb0)
      obtain ⟨⟨out, m⟩, h1, h2⟩ := bind_eq_ok.1 h
      unfold eachComp at h1
      split at h1
      · simp [rpanic] at h1
      · obtain ⟨q, hq, h1⟩ := bind_eq_ok.1 h1
        obtain ⟨hql, hqc⟩ := inner hq (.inr (by
          unfold Path.isMultipath at hm
          cases hcomp : path.comp with
          | nil => rw [hcomp] at hm; simp at hm
          | cons c t =>
            rw [hcomp] at hm ha
            have h0 : a = c := by
              have := (At.zero (c :: t)).idx
              rw [this] at ha; cases ha; rfl
            subst h0
            have : a = c! '{' := by simpa [haa] using hm
            rw [ha, this])) (.inr hcl)
        have := eachCompLoop_cut (P := fun st : Bytes × Nat => ∃ done : List (Bytes × Value), (∀ v ∈ done, P v.1 ∧ D v.2.json) ∧
            st = (c! '{' :: joinComma ((members done).map memberText), (members done).length)) (by
          rintro st k p st' ⟨done, hd, rfl⟩ hk hp hf
          obtain ⟨res, hres, hf⟩ := bind_eq_ok.1 hf
          cases hf
          refine ⟨done ++ [(k, res)], ?_, pushMember_snoc done k res⟩
          intro v hv
          rcases List.mem_append.1 hv with hv | hv
          · exact hd v hv
          · simp at hv; subst hv
            have := hp.infix.length_le
            refine ⟨?_, ih p (by omega) (I.cut hP (hqc.trans hp)) _ _ hj hres⟩
            rcases hk with hk | rfl
            · exact I.cut hP (hqc.trans hk)
            · exact I.under)
          _ _ _ _ _ _ ⟨[], by simp, rfl⟩ (.zero _) (by simp) h1
        obtain ⟨done, hd, he⟩ := this
        cases he
        simp only at h2
        rw [jsonFromOwned_eq] at h2
        cases h2
        rw [mkOwned_json, joinComma_eq]
        have := I.object (ms := (done.filter (·.2.exists)).map fun kv => (kv.1, kv.2.json)) (by
          intro m hm
          obtain ⟨kv, h3, rfl⟩ := List.mem_map.1 hm
          obtain ⟨h4, h5⟩ := List.mem_filter.1 h3
          exact hd kv h4)
        unfold objectText at this
        simpa [members, memberText, Function.comp_def] using this


/-- Every result of `get` has the property. -/
theorem Closes.get {path : Bytes} (hP : P path) : Holds D path := by
  generalize hn : path.length = n
  induction n using Nat.strongRecOn generalizing path with
  | ind n ih =>
    have ih : ∀ q, q.length < n → P q → Holds D q := fun q hq hp => ih _ hq hp rfl
    intro json v hj h
    rw [get_eq, getBody] at h
    obtain ⟨⟨res, p⟩, h1, h2⟩ := bind_eq_ok.1 h
    simp only at h2
    have hlp := linesPrefix_cut path
    have hll := hlp.infix.length_le
    have hc : CutRest path (pNext (linesPrefix path).1) := fun hx => hlp.trans (pNext_rest _ hx)
    have hr : (pNext (linesPrefix path).1).sep ≠ 0 → (pNext (linesPrefix path).1).extra.length < n := by
      intro hx
      have := (pNext_ok (linesPrefix path).1).lt hx
      omega
    have hres : D res.json := by
      have h3 := h1
      rw [getFirst_eq] at h3
      simp only at h3
      split at h3
      · rename_i hl
        exact I.gArr hP ih hc hr hj (.inl rfl) h3
      split at h3
      · rename_i hm
        have hok := pNext_ok (linesPrefix path).1
        rw [modExec_eq hok hm] at h3
        obtain ⟨out, h4, h5⟩ := bind_eq_ok.1 h3
        cases h5
        rw [jsonIntoOwned_json (pParse_oneText out 0)]
        exact I.mod (I.cut hP hlp) hj hm h4
      split at h3
      · rename_i hm
        have := (pNext_ok (linesPrefix path).1).comp.length_le
        exact I.multi hP ih hj hm (hlp.trans (pNext_cut _)) (by omega) h3
      · exact I.gStart hP ih hc hr hj h3
    split at h2
    · cases h2; exact hres
    · rename_i hm
      have hsep : p.sep ≠ 0 := by simpa [Path.more] using hm
      have hlt := getFirst_rest h1 hsep
      have hcut := getFirst_cut h1 hsep
      simp only at hlt hcut
      exact Closes.getIn (getFirst_prov h1).oneText hres (ih _ (by omega) (I.cut hP hcut)) h2

end

theorem Closed.get {D P : Bytes → Prop} (I : Closed D P) {path : Bytes} (hP : P path) : Holds D path := I.closes.get hP

end Gjson
