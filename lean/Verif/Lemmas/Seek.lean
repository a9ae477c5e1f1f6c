import Verif.SpecSeek
import Verif.Lemmas.Find
import Verif.Lemmas.GroupCut
import Verif.Lemmas.OwnText
/-
The search with a path of any kind follows `Spec.Seek`.
-/
namespace Gjson
open Spec

/-- The search asks the library itself: `get` on the elements, and the comparison of a query on
what its left side finds there. A component selects the keys that it matches as a pattern if
it has a backslash or a wildcard, and the key that it is otherwise. -/
def libAsks : Asks where
  ask e g o := ∃ w, get e g = .ok w ∧ o = if w.exists then some w.json else none
  holds lh op rh e b := ∃ v, (if lh = [] then parse e else get e lh) = .ok v ∧ queryMatches v op rh = .ok b
  hit k pattern kl := ∃ s, KeyIs kl s ∧ if pattern then MatchesE CodeEsc k s else s = k

/-- What the search returns. -/
def Reaches (x : Res (Value × Path)) (P : Parts) : Option Landing → Prop
  | none => x = .ok (Value.default, P.path)
  | some h => ∃ u p, x = .ok (u, p) ∧ SameAsText u h.text ∧ OneText u ∧ h.text ≠ [] ∧ p.sep = h.sep ∧ p.extra = h.rest

theorem Reaches.exists_iff {x : Res (Value × Path)} {P : Parts} {o : Option Landing} (h : Reaches x P o) :
    ∃ u p, x = .ok (u, p) ∧ (u.exists = true ↔ o ≠ none) := by
  cases o with
  | none => exact ⟨_, _, h, by simp [show Value.default.exists = false from rfl]⟩
  | some r =>
    obtain ⟨u, p, h1, h2, _, h4, _⟩ := h
    exact ⟨u, p, h1, by simp [sameAsText_exists h2 h4]⟩

theorem ask_results {g : Bytes} {vs : List Bytes} {os : List (Option Bytes)} (h : Aligned (fun e o => libAsks.ask e g o) vs os) :
    ∃ ws, Results g vs ws ∧ existing ws = os.filterMap id := by
  induction h with
  | nil => exact ⟨[], .nil, rfl⟩
  | cons h _ ih =>
    obtain ⟨ws, h1, h2⟩ := ih
    obtain ⟨w, h3, rfl⟩ := h
    refine ⟨w :: ws, .cons h3 h1, ?_⟩
    unfold existing at h2 ⊢
    cases hw : w.exists <;> simp [hw, h2]

theorem owned_array_same (l : List Bytes) : SameAsText (mkOwned (arrayText l) none INFO_ARRAY) (arrayText l) := by
  refine ⟨mkOwned_json _ _ _, by rw [mkOwned_kind]; rfl, _, parse_eq _, ?_⟩
  have := (Prov.array (commaSep l ++ [c! ']'])).ownText (by simp)
  rw [mkOwned_json] at this
  exact this

theorem owned_count_same (n : Nat) : SameAsText (mkOwned (natDec n) none INFO_NUMBER) (numeral n) := by
  refine ⟨by rw [mkOwned_json, natDec_eq], by rw [mkOwned_kind, kind_of_digits]; decide, _, parse_eq _, ?_⟩
  have := count_ownText n (by rw [mkOwned_json, natDec_eq]; exact (numeral_spec n).1)
  rw [mkOwned_json, natDec_eq] at this
  rw [natDec_eq]
  exact this

theorem gArrVals_noHash {k rest : Bytes} {e w : Bool} {sep : UInt8} {m : Nat} (hk : ∀ c ∈ k.head?, c ≠ c! '#') (vals : List Value) :
    gArrVals get (Spec.Parts.path ⟨k, e, w, sep, m, rest⟩) vals =
      .ok (if (parseI64 k).getD (-1) < 0 then Value.default else vals.getD ((parseI64 k).getD (-1)).toNat Value.default,
        Spec.Parts.path ⟨k, e, w, sep, m, rest⟩) := by
  unfold gArrVals
  simp only [Spec.Parts.path]
  cases k with
  | nil => rfl
  | cons c t =>
    have : ¬ c = c! '#' := hk _ rfl
    simp only [if_neg this]
    rfl

theorem indexText_noHash {k : Bytes} {n : Nat} (h : IndexText k n) : ∀ c ∈ k.head?, c ≠ c! '#' := by
  obtain ⟨ds, h1, h2, _, h3⟩ := h
  intro c hc
  rcases h3 with rfl | rfl | ⟨rfl, _⟩
  · cases k with
    | nil => cases hc
    | cons d t =>
      simp at hc; subst hc
      have := h2 d (by simp)
      unfold IsDigit at this
      grind
  · simp at hc; subst hc; decide
  · simp at hc; subst hc; decide

theorem picks_reaches {vs : List Bytes} {P : Parts} {o : Option Landing} (h : Picks libAsks vs P o) {vals : List Value}
    (a1 : Aligned SameAsText vals vs) (a2 : ∀ v ∈ vals, v.exists = true ∧ v.json = v.slice)
    (hne : ∀ v ∈ vs, v ≠ []) (hone : ∀ x, gArrVals get P.path vals = .ok x → OneText x.1) : Reaches (gArrVals get P.path vals) P o := by
  cases h with
  | @index k rest v e w sep m n hi hn hv =>
    have e : gArrVals get (Spec.Parts.path ⟨k, e, w, sep, m, rest⟩) vals = .ok (vals.getD n Value.default, Spec.Parts.path ⟨k, e, w, sep, m, rest⟩) := by
      rw [gArrVals_noHash (indexText_noHash hi), index_iff.1 ⟨hi, hn⟩]
      simp only [Option.getD_some, Int.toNat_natCast]
      rw [if_neg (by omega)]
    obtain ⟨x, hx, hs⟩ := aligned_get a1 hv
    refine ⟨_, _, e, ?_, hone _ e, hne _ (List.mem_of_getElem? hv), rfl, rfl⟩
    rw [List.getD_eq_getElem?_getD, hx]
    exact hs
  | @beyond k rest e w sep m hk hi =>
    rw [gArrVals_noHash hk]
    show Except.ok _ = _
    by_cases hn : (parseI64 k).getD (-1) < 0
    · rw [if_pos hn]
    · rw [if_neg hn]
      cases hp : parseI64 k with
      | none => rw [hp] at hn; simp at hn
      | some i =>
        rw [hp] at hn
        simp only [Option.getD_some] at hn ⊢
        obtain ⟨h1, h2⟩ := index_iff.2 (show parseI64 k = some ((i.toNat : Nat) : Int) by rw [hp]; congr 1; omega)
        have := hi _ h1 h2
        rw [List.getElem?_eq_none_iff] at this
        rw [List.getD_eq_getElem?_getD, List.getElem?_eq_none (by rw [aligned_length a1]; exact this)]
        rfl
  | @count rest sep hs =>
    have e : gArrVals get (Spec.Parts.path ⟨b!"#", false, false, sep, 0, rest⟩) vals = .ok (mkOwned (natDec vals.length) none INFO_NUMBER,
        Spec.Parts.path ⟨b!"#", false, false, sep, 0, rest⟩) := by
      have hs' : (Spec.Parts.path ⟨b!"#", false, false, sep, 0, rest⟩).sep ≠ c! '.' := hs
      unfold gArrVals
      rw [if_neg hs']
      rfl
    refine ⟨_, _, e, ?_, hone _ e, (numeral_spec _).1, rfl, rfl⟩
    rw [aligned_length a1]
    exact owned_count_same _
  | @map rest g r sep os hg hw =>
    obtain ⟨ws, w1, w2⟩ := ask_results hw
    obtain ⟨g1, g2, g3⟩ := nextGroup_cut (p := Spec.Parts.path ⟨b!"#", false, false, c! '.', 0, rest⟩) rfl hg
    obtain ⟨l, l1, l2⟩ := collect_map a1 w1 a2
    have e : gArrVals get (Spec.Parts.path ⟨b!"#", false, false, c! '.', 0, rest⟩) vals =
        .ok (mkOwned (arrayText (os.filterMap id)) none INFO_ARRAY, (pGroup (Spec.Parts.path ⟨b!"#", false, false, c! '.', 0, rest⟩)).2) := by
      rw [← w2, ← l2, arrayText, ← joinComma_eq]
      unfold gArrVals
      rw [g1]
      simp only [Spec.Parts.path, if_true]
      rw [l1]; rfl
    exact ⟨_, _, e, owned_array_same _, hone _ e, by simp [arrayText], g2, g3⟩
  | @first q lh op rh rest sep test hq ht =>
    obtain ⟨x, x1, x2⟩ := find_kept a1 ht a2
    have e : gArrVals get (Spec.Parts.path ⟨b!"#(" ++ q ++ b!")", false, false, sep, 0, rest⟩) vals =
        .ok (x, Spec.Parts.path ⟨b!"#(" ++ q ++ b!")", false, false, sep, 0, rest⟩) := by
      rw [gArrVals_first get vals (t := b!"(" ++ q ++ b!")") rfl (by simp) (by rw [List.getLast?_append]; simp),
        queryCut_pParts (p := Spec.Parts.path ⟨b!"#(" ++ q ++ b!")", false, false, sep, 0, rest⟩) hq]
      simp only
      rw [x1]; rfl
    cases hf : vs.find? test with
    | none =>
      rw [hf] at x2
      rw [e, x2]
      rfl
    | some v =>
      rw [hf] at x2
      exact ⟨_, _, e, x2, hone _ e, hne _ (List.mem_of_find?_eq_some hf), rfl, rfl⟩
  | @all q lh op rh rest sep test hq ht hs =>
    have hk := collect_kept (f := .ok) a1 ht a2
    have hid := collect_id ((vals.zip vs).filterMap (fun x => if test x.2 then some x.1 else none))
    simp only [ok_bind] at hk hid
    have e : gArrVals get (Spec.Parts.path ⟨b!"#(" ++ q ++ b!")#", false, false, sep, 0, rest⟩) vals =
        .ok (mkOwned (arrayText (vs.filter test)) none INFO_ARRAY, Spec.Parts.path ⟨b!"#(" ++ q ++ b!")#", false, false, sep, 0, rest⟩) := by
      have hs' : (Spec.Parts.path ⟨b!"#(" ++ q ++ b!")#", false, false, sep, 0, rest⟩).sep ≠ c! '.' := hs
      rw [gArrVals_all get vals (t := b!"(" ++ q ++ b!")#") rfl (by simp) (by rw [List.getLast?_append]; simp),
        queryCut_pParts (p := Spec.Parts.path ⟨b!"#(" ++ q ++ b!")#", false, false, sep, 0, rest⟩) hq, pGroup_no _ hs']
      simp only [if_neg hs']
      rw [hk, hid]
      simp only [ok_bind]
      unfold arrayOf arrayText
      rw [existing_aligned (kept_aligned a1) (kept_exist a2), joinComma_eq]
    exact ⟨_, _, e, owned_array_same _, hone _ e, by simp [arrayText], rfl, rfl⟩
  | @allMap q lh op rh rest g r sep test os hq ht hg hw =>
    obtain ⟨ws, w1, w2⟩ := ask_results hw
    obtain ⟨g1, g2, g3⟩ := nextGroup_cut (p := Spec.Parts.path ⟨b!"#(" ++ q ++ b!")#", false, false, c! '.', 0, rest⟩) rfl hg
    have hk := collect_kept (f := fun v => getIn get v g) a1 ht a2
    obtain ⟨l, l1, l2⟩ := collect_map (kept_aligned (test := test) a1) w1 (kept_exist a2)
    have e : gArrVals get (Spec.Parts.path ⟨b!"#(" ++ q ++ b!")#", false, false, c! '.', 0, rest⟩) vals =
        .ok (mkOwned (arrayText (os.filterMap id)) none INFO_ARRAY, (pGroup (Spec.Parts.path ⟨b!"#(" ++ q ++ b!")#", false, false, c! '.', 0, rest⟩)).2) := by
      have hs' : (Spec.Parts.path ⟨b!"#(" ++ q ++ b!")#", false, false, c! '.', 0, rest⟩).sep = c! '.' := rfl
      rw [gArrVals_all get vals (t := b!"(" ++ q ++ b!")#") rfl (by simp) (by rw [List.getLast?_append]; simp),
        queryCut_pParts (p := Spec.Parts.path ⟨b!"#(" ++ q ++ b!")#", false, false, c! '.', 0, rest⟩) hq, g1]
      simp only [if_pos hs']
      rw [hk, l1]
      simp only [ok_bind]
      unfold arrayOf arrayText
      rw [l2, w2, joinComma_eq]
    exact ⟨_, _, e, owned_array_same _, hone _ e, by simp [arrayText], g2, g3⟩

/-! ### Objects -/

theorem computes_path (P : Parts) : (P.path.isModifier = false ∧ P.path.isMultipath = false) ↔ ¬ Computes P.comp := by
  have e : P.path.comp = P.comp := rfl
  unfold Path.isModifier Path.isMultipath Computes
  rw [e]
  cases P.comp with
  | nil => simp
  | cons c t => simp; grind

theorem cut_next {path : Bytes} {P : Parts} (h : CutUp path P) : pNext path = P.path :=
  Except.ok.inj ((pathNext_eq path).symm.trans (cutUp_eval h))

theorem cut_dives {P P' : Parts} (h : CutUp P.rest P') : P.path.dives = true ↔ P.sep = c! '.' ∧ ¬ Computes P'.comp := by
  have e : pNext P.path.extra = P'.path := cut_next h
  have e2 : P.path.sep = P.sep := rfl
  unfold Path.dives
  rw [e, e2]
  have := computes_path P'
  simp only [Bool.and_eq_true, Bool.not_eq_true', decide_eq_true_eq, this.symm]
  grind

theorem hit_lib {kl s : Bytes} (P : Parts) (hs : KeyIs kl s) : pKeyMatch s P.path = true ↔ libAsks.hit P.comp (P.esc || P.wild) kl := by
  have hu : ∀ s', KeyIs kl s' → s' = s := by
    rintro s' ⟨v', h1, h2⟩
    obtain ⟨v, h3, h4⟩ := hs
    rw [h1] at h3; cases h3
    rw [h2] at h4; cases h4; rfl
  have : pKeyMatch s P.path = true ↔ if P.esc || P.wild then MatchesE CodeEsc P.comp s else s = P.comp := by
    have e1 : P.path.esc = P.esc := rfl
    have e2 : P.path.pat = P.wild := rfl
    have e3 : P.path.comp = P.comp := rfl
    unfold pKeyMatch
    rw [e1, e2, e3]
    cases P.esc <;> cases P.wild <;> simp [pm_iff]
  rw [this]
  constructor
  · intro h; exact ⟨s, hs, h⟩
  · rintro ⟨s', h1, h2⟩; rw [← hu s' h1]; exact h2

open Classical in
theorem member_at {P P' : Parts} {m : Member} {r : Bytes} (hc : CutUp P.rest P') (L : Nat) (hw : m.Wf) (hv : IsValue m.val) (hr : Stop r) :
    ∃ i, gObjLoop (diveOf L P.path) L P.path (m.text ++ r) =
      if libAsks.hit P.comp (P.esc || P.wild) m.key then
        if (P.sep = c! '.' ∧ ¬ Computes P'.comp) ∧ IsCont m.val then do
          let (res, p) ← gCont get L P'.path (m.val ++ (m.post ++ r))
          if res.exists then .ok (res, p) else gObjLoop (diveOf L P.path) L P.path (m.val ++ (m.post ++ r))
        else .ok (leafVal (some i) m.val, P.path)
      else gObjLoop (diveOf L P.path) L P.path r := by
  obtain ⟨s, hs, _⟩ := keyIs_total hw.2.1
  obtain ⟨i, e⟩ := gObjLoop_member (diveOf L P.path) L P.path hw hv hr.follow hs
  refine ⟨i, e.trans ?_⟩
  simp only [hit_lib P hs, cut_dives hc]
  split
  · split
    · rename_i hd
      unfold diveOf
      rw [if_pos ((cut_dives hc).2 hd.1), show pNext P.path.extra = P'.path from cut_next hc]
    · rfl
  · rfl

open Classical in
mutual
theorem seek_reaches {v : Bytes} {P : Parts} {o : Option Landing} (h : Seek libAsks v P o) (hc : IsCont v) (L : Nat) (q : Bytes) :
    Reaches (gCont get L P.path (v ++ q)) P o := by
  match h with
  | .scalar h1 h2 => rcases hc with h | h <;> contradiction
  | .obj hobj hw =>
    obtain ⟨ms, a1, a2, a3, _, a5⟩ := gCont_obj get L P.path (q := q) hobj
    rw [a5]
    have he := ent_members (d := diveOf L P.path) (L := L) (p := P.path) (q := q) (es := []) a1 a2 (.nil (gObjLoop_close _ _ _ _))
    rw [a3, List.append_nil] at he
    exact among_reaches hw L _ he
  | .arr harr hp =>
    have hg := gCont_arr get L P.path (q := q) harr
    rw [hg]
    refine picks_reaches hp (array_toks harr q _) (eachToks_exist _ _ _) (fun x hx => isValue_ne_nil (IsArray.mem_value harr x hx).1) fun x hx => ?_
    exact (gArr_prov (lines := false) (L := L) (s := v ++ q) hx).oneText
theorem among_reaches {P : Parts} {es : List Seen} {o : Option Landing} (h : Among libAsks P es o) (L : Nat) (s : Bytes)
    (he : Meets (diveOf L P.path) L P.path s es) : Reaches (gObjLoop (diveOf L P.path) L P.path s) P o := by
  obtain ⟨P0, h0⟩ := cutUp_total P.rest
  match h with
  | .nil => cases he with | nil h => exact h
  | .stop => cases he with | stop h => exact h
  | .skip hn hw =>
    have ih := fun s he => among_reaches hw L s he
    cases he with
    | member m1 m2 m3 m4 m5 =>
      obtain ⟨i, e⟩ := member_at h0 L m1 m2 m3
      rw [m4, e, if_neg hn]
      exact ih _ m5
  | .scalar hit h1 h2 =>
    cases he with
    | member m1 m2 m3 m4 m5 =>
      obtain ⟨i, e⟩ := member_at h0 L m1 m2 m3
      rw [m4, e, if_pos hit, if_neg (by rintro ⟨_, h | h⟩ <;> contradiction)]
      exact ⟨_, _, rfl, leaf_sameAsText m2 _, mkVal_oneText _ _ _, isValue_ne_nil m2, rfl, rfl⟩
  | .last hit hs =>
    cases he with
    | member m1 m2 m3 m4 m5 =>
      obtain ⟨i, e⟩ := member_at h0 L m1 m2 m3
      rw [m4, e, if_pos hit, if_neg (fun h => hs h.1.1)]
      exact ⟨_, _, rfl, leaf_sameAsText m2 _, mkVal_oneText _ _ _, isValue_ne_nil m2, rfl, rfl⟩
  | .computes hit hcut hcomp =>
    cases he with
    | member m1 m2 m3 m4 m5 =>
      obtain ⟨i, e⟩ := member_at hcut L m1 m2 m3
      rw [m4, e, if_pos hit, if_neg (fun h => h.1.2 hcomp)]
      exact ⟨_, _, rfl, leaf_sameAsText m2 _, mkVal_oneText _ _ _, isValue_ne_nil m2, rfl, rfl⟩
  | .into (P' := P') hit hs hc hcut hcomp hf =>
    have ih := fun q => seek_reaches hf hc L q
    cases he with
    | member m1 m2 m3 m4 m5 =>
      obtain ⟨i, e⟩ := member_at hcut L m1 m2 m3
      rw [m4, e, if_pos hit, if_pos ⟨⟨hs, hcomp⟩, hc⟩]
      obtain ⟨u, p, h1, h2⟩ := ih _
      rw [h1, ok_bind]
      simp only
      rw [if_pos (sameAsText_exists h2.1 h2.2.2.1)]
      exact ⟨u, p, rfl, h2⟩
  | .again (P' := P') hit hs hc hcut hcomp hf hm hw =>
    have ih := fun q => seek_reaches hf hc L q
    have ihw := fun s he => among_reaches hw L s he
    cases he with
    | @member _ r m _ m1 m2 m3 m4 m5 =>
      obtain ⟨i, e⟩ := member_at hcut L m1 m2 m3
      rw [m4, e, if_pos hit, if_pos ⟨⟨hs, hcomp⟩, hc⟩]
      have h1 : gCont get L P'.path _ = _ := ih (m.post ++ r)
      rw [h1, ok_bind]
      simp only
      rw [if_neg (by decide)]
      refine ihw _ (met_ent hm (.cons m2 rfl (m3.ws m1.2.2.2.2) (.nil ?_)) m5)
      exact gObjLoop_ws _ _ _ m1.2.2.2.2
end

end Gjson
