import Verif.Lemmas.Place
import Verif.Lemmas.Depth
import Verif.Lemmas.Total
import Verif.Lemmas.LeadPretty
/-
Blanks in front of a text do not matter to any path.
-/
namespace Gjson
open Spec

/-! ### The place of what is searched -/

theorem tokVal_same (i j : Nat) (t : Option (Bytes × UInt32)) : SameValue (tokVal i t) (tokVal j t) := by
  cases t with
  | none => exact .refl _
  | some x => exact sameValue_index _ _ _ _

theorem toks_same (s : Bytes) (i j : Nat) : Aligned SameValue (toks i s) (toks j s) := by
  generalize hn : s.length = n
  induction n using Nat.strongRecOn generalizing s i j with
  | ind n ih =>
    cases s with
    | nil => rw [toks_nil, toks_nil]; exact .nil
    | cons c r =>
      rw [toks.eq_def, toks.eq_def (i := j)]
      simp only
      split
      · exact ih r.length (by simp at hn; omega) r _ _ rfl
      split
      · exact .nil
      rw [(tokVal_same i j (leafTok (c :: r)).1).exists]
      split
      · have := leafTok_lt (s := c :: r) (by simp)
        exact .cons (tokVal_same _ _ _) (ih _ (by omega) _ _ _ rfl)
      · exact .nil

theorem eachToks_same (s : Bytes) (lines : Bool) (i j : Nat) : Aligned SameValue (eachToks i lines s) (eachToks j lines s) := by
  unfold eachToks
  split <;> exact toks_same _ _ _

theorem aligned_alike_prov {as bs : List Value} (h : Aligned SameValue as bs) (ha : ∀ v ∈ as, OneText v) (hb : ∀ v ∈ bs, OneText v) :
    Aligned Alike as bs := by
  induction h with
  | nil => exact .nil
  | cons hab _ ih =>
    exact .cons ⟨ha _ (by simp), hb _ (by simp), hab⟩ (ih (fun v hv => ha v (by simp [hv])) (fun v hv => hb v (by simp [hv])))

theorem gArr_place (L1 L2 : Nat) (lines : Bool) (p : Path) (s : Bytes) : RelRes SameX (gArr get L1 lines p s) (gArr get L2 lines p s) := by
  unfold gArr
  exact gArrVals_alike p (aligned_alike_prov (eachToks_same _ _ _ _) (fun v hv => (eachToks_prov _ _ _ v hv).oneText)
    (fun v hv => (eachToks_prov _ _ _ v hv).oneText))

theorem gObjLoop_place {d1 d2 : Bytes → Res (Value × Path)} (L1 L2 : Nat) {p : Path} (hd : ∀ s, RelRes SameX (d1 s) (d2 s)) (s : Bytes) :
    RelRes SameX (gObjLoop d1 L1 p s) (gObjLoop d2 L2 p s) := by
  generalize hn : s.length = n
  induction n using Nat.strongRecOn generalizing s with
  | ind n ih =>
    cases s with
    | nil => rw [gObjLoop_nil, gObjLoop_nil]; exact .ok (sameX_refl _)
    | cons c r =>
      by_cases h1 : c = c! '}'
      · subst h1; rw [gObjLoop_close, gObjLoop_close]; exact .ok (sameX_refl _)
      by_cases h2 : c = c! '"'
      · subst h2
        cases hq : qStr r with
        | none => rw [gObjLoop_nokey _ _ _ hq, gObjLoop_nokey _ _ _ hq]; exact .ok (sameX_refl _)
        | some y =>
          obtain ⟨b, f, q⟩ := y
          have hql := qStr_lt hq
          cases hv : pSkipColon q with
          | nil => rw [gObjLoop_noval _ _ _ hq hv, gObjLoop_noval _ _ _ hq hv]; exact .ok (sameX_refl _)
          | cons c2 r2 =>
            have hle := pSkipColon_le q
            have hlt : (c2 :: r2).length < n := by rw [hv] at hle; simp only [List.length_cons] at hn hle ⊢; omega
            have htl : (leafTok (c2 :: r2)).2.length < n := by
              have := leafTok_lt (s := c2 :: r2) (by simp); omega
            rw [gObjLoop_key _ _ _ hq hv, gObjLoop_key _ _ _ hq hv]
            split
            · split
              · refine (hd _).bind ?_
                rintro ⟨x1, y1⟩ ⟨x2, y2⟩ hxy
                have he := hxy.1.exists
                simp only at he ⊢
                rw [he]
                split
                · exact .ok hxy
                · exact ih _ hlt _ rfl
              · have hs := tokVal_same (L1 - (c2 :: r2).length) (L2 - (c2 :: r2).length) (leafTok (c2 :: r2)).1
                rw [hs.exists]
                split
                · exact .ok ⟨hs, rfl⟩
                · exact ih _ htl _ rfl
            · exact ih _ htl _ rfl
      · rw [gObjLoop_skip _ _ _ _ h1 h2, gObjLoop_skip _ _ _ _ h1 h2]
        exact ih r.length (by simp at hn; omega) r rfl

theorem gObj_place (L1 L2 : Nat) : ∀ (k : Nat) {p : Path}, pathRank p < k → ∀ (s : Bytes), RelRes SameX (gObj get L1 p s) (gObj get L2 p s)
  | 0, _, h, _ => by omega
  | k + 1, p, hk, s => by
    rw [gObj.eq_def, gObj.eq_def get L2]
    cases s with
    | nil => exact .ok (sameX_refl _)
    | cons c r =>
      simp only
      split
      · exact .ok (sameX_refl _)
      · refine gObjLoop_place L1 L2 ?_ r
        intro t
        split
        · rename_i hd
          have := pathRank_next hd
          split
          · exact gObj_place L1 L2 k (by omega) t
          · exact gArr_place L1 L2 false _ t
        · exact .ok (sameX_refl _)

theorem gStart_place (L1 L2 : Nat) (p : Path) : ∀ (s : Bytes), RelRes SameX (gStart get L1 p s) (gStart get L2 p s)
  | [] => .ok (sameX_refl _)
  | c :: r => by
    unfold gStart
    split
    · exact gStart_place L1 L2 p r
    split
    · exact gObj_place L1 L2 _ (Nat.lt_succ_self _) _
    split
    · exact gArr_place L1 L2 false p _
    · exact .ok (sameX_refl _)

/-! ### Paths of all kinds -/

theorem same_push {a b : Res Value} (h : SameRes a b) {σ : Type} {f : Value → σ} (hf : ∀ v w, SameValue v w → f v = f w) :
    (a >>= fun v => (.ok (f v) : Res σ)) = (b >>= fun v => .ok (f v)) := by
  cases h with
  | ok h => rw [ok_bind, ok_bind, hf _ _ h]
  | error e => rfl

theorem pushValue_same (st : Bytes × Nat) {v w : Value} (h : SameValue v w) : pushValue st v = pushValue st w := by
  unfold pushValue; rw [h.exists, h.json]

theorem pushMember_same (st : Bytes × Nat) (k : Bytes) {v w : Value} (h : SameValue v w) : pushMember st k v = pushMember st k w := by
  unfold pushMember; rw [h.exists, h.json]

theorem multiExec_place {a b : Bytes} {p : Path} (h : ∀ q : Bytes, q.length < p.comp.length → SameRes (get a q) (get b q)) :
    multiExec get a p = multiExec get b p := by
  have h1 : execArr get a p = execArr get b p := by
    unfold execArr
    rw [eachComp_congr (path := p.comp) (f := fun (st : Bytes × Nat) _ q => do
      let res ← get a q
      .ok (pushValue st res)) (g := fun (st : Bytes × Nat) _ q => do
      let res ← get b q
      .ok (pushValue st res)) (by intro st k q hl; exact same_push (h q hl) fun v w => pushValue_same st)]
  have h2 : execObj get a p = execObj get b p := by
    unfold execObj
    rw [eachComp_congr (path := p.comp) (f := fun (st : Bytes × Nat) key q => do
      let res ← get a q
      .ok (pushMember st key res)) (g := fun (st : Bytes × Nat) key q => do
      let res ← get b q
      .ok (pushMember st key res)) (by intro st k q hl; exact same_push (h q hl) fun v w => pushMember_same st k)]
  unfold multiExec
  rw [h1, h2]

/-- Two texts that searches, `..` and modifiers treat alike are treated alike by every path. -/
theorem get_place {a b : Bytes} (hs : ∀ p, RelRes SameX (gStart get a.length p a) (gStart get b.length p b))
    (hl : ∀ p, RelRes SameX (gArr get a.length true p a) (gArr get b.length true p b))
    (hm : ∀ n arg, RelRes (fun x y => SameValue (pParse 0 x) (pParse 0 y)) (modApply get n a arg) (modApply get n b arg))
    (path : Bytes) : SameRes (get a path) (get b path) := by
  generalize hn : path.length = n
  induction n using Nat.strongRecOn generalizing path with
  | ind n ih =>
    have hfirst : RelRes SameX (getFirst get a path) (getFirst get b path) := by
      rw [getFirst_eq, getFirst_eq]
      simp only
      split
      · exact hl _
      split
      · rename_i hmod
        have hok := pNext_ok (linesPrefix path).1
        rw [modExec_eq hok hmod, modExec_eq hok hmod]
        refine (hm _ _).bind fun x y hxy => .ok ⟨?_, rfl⟩
        exact ((sameValue_owned (pParse_oneText _ _)).trans hxy).trans (sameValue_owned (pParse_oneText _ _)).symm
      split
      · have h1 := (linesPrefix_suffix path).length_le
        have h2 := (pNext_ok (linesPrefix path).1).comp.length_le
        rw [multiExec_place fun q hq => ih q.length (by omega) q rfl]
        cases multiExec get b (pNext (linesPrefix path).1) with
        | error e => exact .error e
        | ok x => exact .ok (sameX_refl _)
      · exact hs _
    rw [get_eq, get_eq, getBody, getBody]
    cases h1 : getFirst get a path with
    | error e =>
      rw [h1] at hfirst
      cases h2 : getFirst get b path with
      | error e' => rw [h2] at hfirst; cases hfirst; exact .error _
      | ok y => rw [h2] at hfirst; cases hfirst
    | ok x =>
      rw [h1] at hfirst
      cases h2 : getFirst get b path with
      | error e' => rw [h2] at hfirst; cases hfirst
      | ok y =>
        rw [h2] at hfirst
        cases hfirst with
        | ok hxy => exact finish_same (getFirst_prov h1).oneText (getFirst_prov h2).oneText hxy

/-! ### Blanks in front -/

theorem pParse_place (s : Bytes) (i j : Nat) : SameValue (pParse i s) (pParse j s) := by
  induction s generalizing i j with
  | nil => exact .refl _
  | cons c r ih =>
    unfold pParse
    split
    · exact ih _ _
    split
    · exact sameValue_index _ _ _ _
    split
    · exact sameValue_index _ _ _ _
    split
    · exact tokVal_same _ _ _
    · exact .refl _

theorem pParse_led {w : Bytes} (hw : Ws w) (s : Bytes) : SameValue (pParse 0 (w ++ s)) (pParse 0 s) := by
  rw [pParse_ws hw]; exact pParse_place _ _ _

theorem jsonText_lead {w s : Bytes} (hw : Ws w) : JsonText (w ++ s) ↔ JsonText s := by
  induction w with
  | nil => exact Iff.rfl
  | cons c w ih =>
    have hc : IsWs c := hw c (by simp)
    rw [← ih fun x hx => hw x (by simp [hx])]
    constructor
    · rintro ⟨w1, v, w2, h, h1, h2, hv⟩
      obtain ⟨x, q, rfl, hx⟩ := IsValue.cons hv
      cases w1 with
      | nil =>
        simp only [List.cons_append, List.nil_append, List.cons.injEq] at h
        rw [h.1] at hc
        exact absurd hc (StartsValue.not_ws hx)
      | cons y w1 =>
        simp only [List.cons_append, List.cons.injEq] at h
        exact ⟨w1, _, w2, h.2, fun z hz => h1 z (by simp [hz]), h2, hv⟩
    · rintro ⟨w1, v, w2, h, h1, h2, hv⟩
      refine ⟨c :: w1, v, w2, by rw [List.cons_append, h]; rfl, ?_, h2, hv⟩
      intro z hz
      rcases List.mem_cons.1 hz with rfl | hz
      · exact hc
      · exact h1 z hz

theorem pUgly_lead {w : Bytes} (hw : Ws w) (s : Bytes) : pUgly (w ++ s) = pUgly s := by
  induction w with
  | nil => rfl
  | cons c w ih => rw [List.cons_append, pUgly_skip (ws_le (hw c (by simp))), ih fun x hx => hw x (by simp [hx])]

theorem each_same {σ : Type} {v v' : Value} (h : SameValue v v') (hk : v.kind = .array ∨ v.kind = .object)
    (f : σ → Value → Value → Res (σ × Bool)) (st : σ) : v.each f st = v'.each f st := by
  have hk' : ¬ (v.kind ≠ .object ∧ v.kind ≠ .array) := by rcases hk with h | h <;> simp [h]
  unfold Value.each
  rw [h.exists, if_neg hk', ← h.kind, if_neg hk', h.json]

theorem modApply_lead {w : Bytes} (hw : Ws w) (s n arg : Bytes) :
    RelRes (fun x y => SameValue (pParse 0 x) (pParse 0 y)) (modApply get n (w ++ s) arg) (modApply get n s arg) := by
  have hp := pParse_led hw s
  have hsl : (pParse 0 (w ++ s)).slice = (pParse 0 s).slice := by
    rw [← (pParse_slice _ 0).1, ← (pParse_slice _ 0).1, hp.json]
  have hself : RelRes (fun x y => SameValue (pParse 0 x) (pParse 0 y)) (.ok (w ++ s)) (.ok s) := .ok hp
  have heq : ∀ {x y : Res Bytes}, x = y → RelRes (fun x y => SameValue (pParse 0 x) (pParse 0 y)) x y := by
    rintro x _ rfl
    cases x with
    | error e => exact .error e
    | ok x => exact .ok (.refl _)
  unfold modApply
  split
  · exact hself
  split
  · refine heq ?_
    unfold modReverse
    simp only [parse_eq, ok_bind]
    rw [hsl, ← hp.kind]
    split
    · rename_i hk; rw [each_same hp (.inr hk)]
    · rename_i hk; rw [each_same hp (.inl hk)]
    · rfl
  split
  · refine heq ?_
    unfold modUgly
    rw [ugly_eq, ugly_eq, pUgly_lead hw]
  split
  · refine heq ?_
    unfold modPretty pretty
    have := fun o => pretty_lead (fun c hc => ws_le (hw c hc)) s o
    simp only [this]
  split
  · unfold modValid
    rw [valid_eq_pText, valid_eq_pText]
    have : pText (w ++ s) = pText s := by
      rw [Bool.eq_iff_iff, pText_iff, pText_iff]; exact jsonText_lead hw
    rw [this]
    simp only [ok_bind]
    split
    · exact hself
    · exact .ok (.refl _)
  split
  · unfold modFlatten
    have h1 : modFlattenN get ((w ++ s).length + 1) s arg = modFlattenN get (s.length + 1) s arg := by
      obtain ⟨r, h3⟩ := modFlattenN_ok arg (s.length + 1) s (by omega)
      have := flattenN_above (rec := get) (arg := arg) (json := s) (show s.length + 1 ≤ (w ++ s).length + 1 by simp)
      rw [h3] at this ⊢
      exact this.resolve_left (by simp [outOfFuel])
    rw [← h1]
    unfold modFlattenN
    simp only [parse_eq, ok_bind]
    rw [← hp.kind]
    split
    · exact hself
    · rename_i hk
      refine heq ?_
      have hk : (pParse 0 (w ++ s)).kind = .array := by simpa using hk
      simp only [each_same hp (.inl hk)]
  split
  · unfold modJoin
    simp only [parse_eq, ok_bind]
    rw [← hp.kind]
    split
    · exact hself
    · rename_i hk
      refine heq ?_
      have hk : (pParse 0 (w ++ s)).kind = .array := by simpa using hk
      simp only [each_same hp (.inl hk)]
  · exact .ok (.refl _)

/-- Blanks in front do not matter, whatever the text and the path. -/
theorem get_lead {w : Bytes} (hw : Ws w) (s path : Bytes) : SameRes (get (w ++ s) path) (get s path) := by
  refine get_place (fun p => ?_) (fun p => ?_) (modApply_lead hw s) path
  · rw [gStart_ws _ _ _ hw]; exact gStart_place _ _ _ _
  · unfold gArr eachToks
    simp only [if_true]
    rw [toks_ws hw]
    exact gArrVals_alike p (aligned_alike_prov (toks_same _ _ _) (fun v hv => (toks_prov _ _ v hv).oneText)
      (fun v hv => (toks_prov _ _ v hv).oneText))

end Gjson
