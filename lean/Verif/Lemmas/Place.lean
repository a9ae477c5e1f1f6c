import Verif.Lemmas.QueryPath
import Verif.Lemmas.Find
/-
What is found in a value does not depend on its place, for all paths.
-/
namespace Gjson
open Spec

/-- Values that cannot be told apart, with one text each. -/
def Alike (a b : Value) : Prop := OneText a ∧ OneText b ∧ SameValue a b

theorem sameRes_iff {a b : Res Value} : SameRes a b ↔ RelRes SameValue a b :=
  ⟨SameRes.rel, fun h => by cases h with | ok h => exact .ok h | error e => exact .error e⟩

theorem elemMatches_alike {lh op rh : Bytes} {a b : Value} (h : Alike a b) :
    elemMatches get lh op rh a = elemMatches get lh op rh b := by
  unfold elemMatches
  split
  · have := getIn_congr_same h.1 h.2.1 h.2.2 lh
    revert this
    generalize getIn get a lh = X
    generalize getIn get b lh = Y
    intro hs
    cases hs with
    | ok hs => exact queryMatches_congr hs op rh
    | error e => rfl
  · exact queryMatches_congr h.2.2 op rh

/-- Optional values that cannot be told apart. -/
inductive SameOpt : Option Value → Option Value → Prop
  | none : SameOpt none none
  | some {a b : Value} : SameValue a b → SameOpt (some a) (some b)

theorem existing_same {as bs : List Value} (h : Aligned SameValue as bs) : existing as = existing bs := by
  induction h with
  | nil => rfl
  | @cons a b as bs hab _ ih =>
    unfold existing at ih ⊢
    rw [List.filter_cons, List.filter_cons, hab.exists]
    split
    · rw [List.map_cons, List.map_cons, ih, hab.json]
    · exact ih

theorem collectR_alike {f : Value → Res (Option Value)} (hf : ∀ a b, Alike a b → RelRes SameOpt (f a) (f b)) {as bs : List Value}
    (h : Aligned Alike as bs) : RelRes (Aligned SameValue) (collectR f as) (collectR f bs) := by
  induction h with
  | nil => exact .ok .nil
  | @cons a b as bs hab _ ih =>
    rw [collectR_cons, collectR_cons]
    refine (hf a b hab).bind fun x y hxy => ih.bind fun l m hlm => .ok ?_
    cases hxy with
    | none => exact hlm
    | some h => exact .cons h hlm

theorem findR_alike {f : Value → Res Bool} (hf : ∀ a b, Alike a b → f a = f b) {as bs : List Value}
    (h : Aligned Alike as bs) : RelRes SameValue (findR f as) (findR f bs) := by
  induction h with
  | nil => exact .ok (.refl _)
  | @cons a b as bs hab _ ih =>
    unfold findR
    rw [hf a b hab]
    cases f b with
    | error e => exact .error e
    | ok x =>
      simp only [ok_bind]
      split
      · exact .ok hab.2.2
      · exact ih

theorem getD_alike {as bs : List Value} (h : Aligned Alike as bs) (n : Nat) : SameValue (as.getD n Value.default) (bs.getD n Value.default) := by
  induction h generalizing n with
  | nil => exact .refl _
  | cons hab _ ih =>
    cases n with
    | zero => exact hab.2.2
    | succ n => simpa using ih n

/-- `get_arr` depends on the elements only up to their positions. -/
theorem gArrVals_alike (p : Path) {as bs : List Value} (h : Aligned Alike as bs) :
    RelRes SameX (gArrVals get p as) (gArrVals get p bs) := by
  have hidx : RelRes SameX
      (.ok ((if (parseI64 p.comp).getD (-1) < 0 then Value.default else as.getD ((parseI64 p.comp).getD (-1)).toNat Value.default), p))
      (.ok ((if (parseI64 p.comp).getD (-1) < 0 then Value.default else bs.getD ((parseI64 p.comp).getD (-1)).toNat Value.default), p)) := by
    refine .ok ⟨?_, rfl⟩
    simp only
    split
    · exact .refl _
    · exact getD_alike h _
  have hlen : as.length = bs.length := aligned_length h
  unfold gArrVals
  simp only
  split
  · exact hidx
  · split
    · split
      · split
        · refine (collectR_alike (fun a b hab => ?_) h).bind fun l m hlm => .ok ⟨?_, rfl⟩
          · exact (SameRes.rel (getIn_congr_same hab.1 hab.2.1 hab.2.2 _)).bind fun x y hxy => .ok (.some hxy)
          · simp only [arrayOf, existing_same hlm]; exact .refl _
        · rw [hlen]; exact .ok (sameX_refl _)
      · split
        · refine (collectR_alike (fun a b hab => ?_) h).bind fun l m hlm => .ok ⟨?_, rfl⟩
          · rw [elemMatches_alike hab]
            generalize elemMatches get (pParts p).1 (pParts p).2.1 (pParts p).2.2 b = Z
            cases Z with
            | error e => exact .error e
            | ok z =>
              simp only [ok_bind]
              split
              · split
                · exact (SameRes.rel (getIn_congr_same hab.1 hab.2.1 hab.2.2 _)).bind fun x y hxy => .ok (.some hxy)
                · exact .ok (.some hab.2.2)
              · exact .ok .none
          · simp only [arrayOf, existing_same hlm]; exact .refl _
        · exact (findR_alike (fun a b hab => elemMatches_alike hab) h).bind fun x y hxy => .ok ⟨hxy, rfl⟩
    · exact hidx

theorem aligned_alike {as bs : List Value} {vs : List Bytes} (ha : Aligned SameAsText as vs) (hb : Aligned SameAsText bs vs)
    (h1 : ∀ v ∈ as, OneText v) (h2 : ∀ v ∈ bs, OneText v) : Aligned Alike as bs := by
  induction ha generalizing bs with
  | nil => cases hb; exact .nil
  | cons hab _ ih =>
    cases hb with
    | cons hb hbs =>
      exact .cons ⟨h1 _ (by simp), h2 _ (by simp), sameAsText_same hab hb⟩
        (ih hbs (fun v hv => h1 v (List.mem_cons_of_mem _ hv)) (fun v hv => h2 v (List.mem_cons_of_mem _ hv)))

/-- What is found in a container does not depend on its place, for all paths. -/
theorem gCont_any {n : Nat} : ∀ {p : Path}, pathRank p < n → ∀ {v : Bytes}, IsValue v → IsCont v →
    ∀ L1 L2 q1 q2, Stop q1 → Stop q2 → RelRes SameX (gCont get L1 p (v ++ q1)) (gCont get L2 p (v ++ q2)) := by
  induction n with
  | zero => intro p h; omega
  | succ n ih =>
    intro p hp v hv hc L1 L2 q1 q2 h1 h2
    rcases isCont_cases hv hc with ⟨kvs, hobj⟩ | ⟨vs, harr⟩
    · obtain ⟨w, ms, a1, a2, a3, a4, _⟩ : ∃ w ms, Ws w ∧ (∀ q, v ++ q = c! '{' :: (w ++ (membersText ms ++ c! '}' :: q))) ∧
          (∀ m ∈ ms, m.Wf) ∧ (∀ m ∈ ms, IsValue m.val) ∧ ms.map (fun m => (m.key, m.val)) = kvs := by
        rcases hobj with ⟨w, hw, rfl, rfl⟩ | ⟨ms, hne, hwf, hmv, rfl, rfl⟩
        · exact ⟨w, [], hw, by simp [membersText], by simp, by simp, rfl⟩
        · exact ⟨[], ms, Ws.nil, by simp, hwf, hmv, rfl⟩
      rw [a2, a2]
      unfold gCont
      rw [if_pos (by simp), if_pos (by simp), gObj_cons, gObj_cons, gObjLoop_ws _ _ _ a1, gObjLoop_ws _ _ _ a1]
      have hd : ∀ v, IsValue v → IsCont v → ∀ q1 q2, Stop q1 → Stop q2 → p.dives = true →
          RelRes SameX (if p.dives then gCont get L1 (pNext p.extra) (v ++ q1) else .ok (Value.default, p))
            (if p.dives then gCont get L2 (pNext p.extra) (v ++ q2) else .ok (Value.default, p)) := by
        intro v hv hc q1 q2 h1 h2 hdv
        rw [if_pos hdv, if_pos hdv]
        have := pathRank_next hdv
        exact ih (by omega) hv hc L1 L2 q1 q2 h1 h2
      exact members_rel a3 a4 hd fun m hm => inside_rel hd (a4 m hm)
    · rw [gCont_arr get L1 _ harr, gCont_arr get L2 _ harr]
      exact gArrVals_alike p (aligned_alike (array_toks harr q1 (L1 - (v ++ q1).length)) (array_toks harr q2 (L2 - (v ++ q2).length))
        (fun x hx => (eachToks_prov _ _ _ x hx).oneText) (fun x hx => (eachToks_prov _ _ _ x hx).oneText))

/-- Paths whose first component is looked up in the document, as opposed to
modifiers, multipaths and JSON Lines. -/
def LooksUp (path : Bytes) : Prop :=
  linesPrefix path = (path, false) ∧ (pNext path).isModifier = false ∧ (pNext path).isMultipath = false

theorem get_looksUp {path : Bytes} (h : LooksUp path) (json : Bytes) :
    get json path = (gStart get json.length (pNext path) json >>= finish) := get_start h.1 h.2 json

/-- Looking up in a container is looking up in its text, wherever it stands. -/
theorem gCont_get {path v q : Bytes} (h : LooksUp path) (hv : IsValue v) (hc : IsCont v) (hq : Stop q) (L : Nat) :
    SameRes (gCont get L (pNext path) (v ++ q) >>= finish) (get v path) := by
  rw [get_looksUp h]
  have e := gStart_cont get v.length (pNext path) (q := []) hc
  rw [List.append_nil] at e
  rw [e]
  have hr := gCont_any (Nat.lt_succ_self _) hv hc L v.length q [] hq (.ws' Ws.nil) (p := pNext path)
  rw [List.append_nil] at hr
  revert hr
  generalize hx : gCont get L (pNext path) (v ++ q) = X
  generalize hy : gCont get v.length (pNext path) v = Y
  intro hr
  cases hr with
  | error e => exact .error e
  | ok h =>
    rw [← gStart_cont _ _ _ hc] at hx
    rw [← e] at hy
    exact finish_same (gStart_prov hx).oneText (gStart_prov hy).oneText h

/-- Blanks around a value do not matter. -/
theorem get_padded_any {path : Bytes} (h : LooksUp path) {v d1 d2 : Bytes} (hv : IsValue v)
    (h1 : Padded v d1) (h2 : Padded v d2) : SameRes (get d1 path) (get d2 path) := by
  have key : ∀ {d : Bytes}, Padded v d → SameRes (get d path) (get v path) := by
    intro d hd
    obtain ⟨a, b, u1, u2, rfl⟩ := hd
    by_cases hc : IsCont v
    · refine SameRes.trans ?_ (gCont_get h hv hc (.ws' u2) (a ++ (v ++ b)).length)
      rw [get_looksUp h, gStart_ws _ _ _ u1, gStart_cont _ _ _ hc]
      exact .refl _
    · rw [get_looksUp h, get_looksUp h, gStart_ws _ _ _ u1, gStart_noCont _ _ _ (noCont_scalar hv hc b)]
      have := gStart_noCont get v.length (pNext path) (noCont_scalar hv hc [])
      rw [List.append_nil] at this
      rw [this]
      exact .refl _
  exact (key h1).trans (key h2).symm

theorem looksUp_of {path : Bytes} (h1 : ∀ c ∈ path.head?, c ≠ c! '@' ∧ c ≠ c! '{' ∧ c ≠ c! '[')
    (h2 : ¬ b!".." <+: path) : LooksUp path := by
  have hh : ∀ c ∈ (pNext path).comp.head?, c ≠ c! '@' ∧ c ≠ c! '{' ∧ c ≠ c! '[' := by
    obtain ⟨t, ht⟩ := (pNext_ok path).comp
    intro c hc
    refine h1 c ?_
    rw [← ht]
    cases hp : (pNext path).comp with
    | nil => rw [hp] at hc; simp at hc
    | cons a b => rw [hp] at hc; simpa using hc
  refine ⟨?_, ?_, ?_⟩
  · unfold linesPrefix
    split
    · rename_i a b rest
      rw [if_neg]
      rintro ⟨rfl, rfl⟩
      exact h2 ⟨rest, rfl⟩
    · rfl
  · unfold Path.isModifier
    split
    · rfl
    · rename_i hc; rw [hc] at hh; have := hh _ rfl; simp [this.1]
  · unfold Path.isMultipath
    split
    · rfl
    · rename_i hc; rw [hc] at hh; have := hh _ rfl; simp [this.2.1, this.2.2]

theorem callsUp_of {path : Bytes} (h : ∃ c r, path = c :: r ∧ (c = c! '@' ∨ c = c! '{' ∨ c = c! '[')) :
    (pNext path).comp ≠ [] → (pNext path).isModifier = true ∨ (pNext path).isMultipath = true := by
  obtain ⟨c, r, rfl, h⟩ := h
  intro hne
  obtain ⟨t, ht⟩ := (pNext_ok (c :: r)).comp
  cases hp : (pNext (c :: r)).comp with
  | nil => exact absurd hp hne
  | cons a b =>
    rw [hp] at ht
    simp only [List.cons_append, List.cons.injEq] at ht
    obtain ⟨rfl, _⟩ := ht
    unfold Path.isModifier Path.isMultipath
    rw [hp]
    rcases h with rfl | rfl | rfl <;> simp

/-- A search that finds nothing leaves the path as it was. -/
theorem gObjLoop_missing {dive : Bytes → Res (Value × Path)} {L : Nat} {path : Path} :
    ∀ (s : Bytes) (x : Value × Path), gObjLoop dive L path s = .ok x → x.1.exists = true ∨ x = (Value.default, path) := by
  intro s
  generalize hn : s.length = n
  induction n using Nat.strongRecOn generalizing s with
  | ind n ih =>
    intro x hx
    cases s with
    | nil => rw [gObjLoop_nil] at hx; cases hx; exact .inr rfl
    | cons c r =>
      by_cases c1 : c = c! '}'
      · rw [c1, gObjLoop_close] at hx; cases hx; exact .inr rfl
      by_cases c2 : c = c! '"'
      · subst c2
        cases hq : qStr r with
        | none => rw [gObjLoop_nokey _ _ _ hq] at hx; cases hx; exact .inr rfl
        | some y =>
          obtain ⟨b, f, q⟩ := y
          cases hv : pSkipColon q with
          | nil => rw [gObjLoop_noval _ _ _ hq hv] at hx; cases hx; exact .inr rfl
          | cons c3 r3 =>
            rw [gObjLoop_key _ _ _ hq hv] at hx
            have l1 := qStr_lt hq
            have l2 := pSkipColon_le q
            rw [hv] at l2
            have l3 := leafTok_lt (s := c3 :: r3) (by simp)
            simp only [List.length_cons] at hn l2 l3
            have next := ih (leafTok (c3 :: r3)).2.length (by omega) _ rfl
            split at hx
            · split at hx
              · obtain ⟨⟨res, p⟩, g1, g2⟩ := bind_eq_ok.1 hx
                simp only at g2
                split at g2
                · rename_i he; cases g2; exact .inl he
                · exact ih (c3 :: r3).length (by simp only [List.length_cons]; omega) _ rfl _ g2
              · split at hx
                · rename_i he; cases hx; exact .inl he
                · exact next _ hx
            · exact next _ hx
      · rw [gObjLoop_skip _ _ _ _ c1 c2] at hx
        simp only [List.length_cons] at hn
        exact ih r.length (by omega) _ rfl _ hx

theorem gArrVals_missing {p : Path} {vals : List Value} (hv : ∀ v ∈ vals, v.exists = true) {x : Value × Path}
    (h : gArrVals get p vals = .ok x) : x.1.exists = true ∨ x = (Value.default, p) := by
  have hidx : ∀ {x : Value × Path}, (.ok ((if (parseI64 p.comp).getD (-1) < 0 then Value.default
      else vals.getD ((parseI64 p.comp).getD (-1)).toNat Value.default), p) : Res (Value × Path)) = .ok x →
      x.1.exists = true ∨ x = (Value.default, p) := by
    intro x hx
    cases hx
    split
    · exact .inr rfl
    · rw [List.getD_eq_getElem?_getD]
      cases hg : vals[((parseI64 p.comp).getD (-1)).toNat]? with
      | none => exact .inr rfl
      | some v => exact .inl (hv v (List.mem_of_getElem? hg))
  have harr : ∀ l, (arrayOf l).exists = true := by intro l; unfold arrayOf; rw [mkOwned_exists]; rfl
  unfold gArrVals at h
  simp only at h
  split at h
  · exact hidx h
  · split at h
    · split at h
      · split at h
        · obtain ⟨l, _, h2⟩ := bind_eq_ok.1 h
          cases h2; exact .inl (harr l)
        · cases h
          refine .inl ?_
          rw [mkOwned_exists]
          have : natDec vals.length ≠ [] := by
            obtain ⟨c, r, e, _⟩ := natDec_head vals.length
            rw [e]; simp
          simpa using this
      · split at h
        · obtain ⟨l, _, h2⟩ := bind_eq_ok.1 h
          cases h2; exact .inl (harr l)
        · obtain ⟨l, h1, h2⟩ := bind_eq_ok.1 h
          cases h2
          rcases findR_exists h1 with h3 | h3
          · exact .inl (hv _ h3)
          · exact .inr (by rw [h3])
    · exact hidx h

theorem gCont_missing {p : Path} {v q : Bytes} (hv : IsValue v) (hc : IsCont v) {L : Nat} {x : Value × Path}
    (h : gCont get L p (v ++ q) = .ok x) : x.1.exists = true ∨ x = (Value.default, p) := by
  rcases isCont_cases hv hc with ⟨kvs, hobj⟩ | ⟨vs, harr⟩
  · obtain ⟨ms, _, _, _, _, a5⟩ := gCont_obj get L p (q := q) hobj
    rw [a5] at h
    exact gObjLoop_missing _ _ h
  · rw [gCont_arr _ _ _ harr] at h
    exact gArrVals_missing (fun v hv => (eachToks_exist _ _ _ v hv).1) h

end Gjson
