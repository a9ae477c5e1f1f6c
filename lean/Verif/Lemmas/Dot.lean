import Verif.Lemmas.Wild
/-
A dot path of two keys against two lookups.
-/
namespace Gjson
open Spec

theorem plain_ord {k : Bytes} (h : PlainKey k) (hne : k ≠ []) : OrdComp k := Selector.ord (PlainKey.selector h hne)

/-- `parse` keeps everything that `get` looks at. -/
theorem parse_padded {t doc : Bytes} (hv : IsValue t) (hd : Padded t doc) :
    ∃ v, parse doc = .ok v ∧ OneText v ∧ Padded t v.json := by
  obtain ⟨w1, w2, h1, h2, rfl⟩ := hd
  refine ⟨_, parse_eq _, (Prov.modifier 0 _).oneText, ?_⟩
  rw [pParse_ws h1]
  by_cases hk : kindOf t = .object ∨ kindOf t = .array
  · rw [(pParse_cont (r := w2) hv hk _).1, mkVal_json]
    exact ⟨[], w2, Ws.nil, h2, rfl⟩
  · rw [not_or] at hk
    rw [pParse_scalar hv (Follow.ws' h2) hk, leafVal_json]
    exact padded_self t

theorem parse_get {doc : Bytes} (h : JsonText doc) :
    ∃ v, parse doc = .ok v ∧ OneText v ∧ ∀ ks, OrdComps ks → ks ≠ [] → SameRes (v.get (dotPath ks)) (get doc (dotPath ks)) := by
  obtain ⟨w1, t, w2, rfl, h1, h2, hv⟩ := h
  have hdoc : Padded t (w1 ++ (t ++ w2)) := ⟨w1, w2, h1, h2, rfl⟩
  obtain ⟨v, hp, hone, hpv⟩ := parse_padded hv hdoc
  exact ⟨v, hp, hone, fun ks ho hne => (getIn_same hone _).trans (get_padded ho hne hv hpv hdoc)⟩

theorem finish_dot (x : Value) (k b : Bytes) : finish (x, plainPath k (c! '.') b) = getIn get x b := rfl
theorem finish_end (x : Value) (k b : Bytes) : finish (x, plainPath k 0 b) = .ok x := rfl

/-- Two lookups agree with the dot path unless the first finds a container in an
object and the second finds nothing in it. -/
theorem dot_two {v doc a b : Bytes} (hv : IsValue v) (hd : Padded v doc) (ha : PlainKey a ∧ a ≠ []) (hb : PlainKey b ∧ b ≠ [])
    (h : (∃ r, Resolves KeyIs v [a, b] r) ∨ (∀ u, Resolves KeyIs v [a] u → kindOf u ≠ .object ∧ kindOf u ≠ .array) ∨
      kindOf v = .array) :
    SameRes (get doc (dotPath [a, b])) (get doc a >>= fun w => w.get b) := by
  have pa : PlainComps [a, b] := by
    intro k hk; simp at hk; rcases hk with rfl | rfl
    · exact ha
    · exact hb
  have hga : ∀ json, get json a = (gStart get json.length (plainPath a 0 []) json >>= finish) := fun json => by
    have := get_dot (ks := []) ha.1 (.inl ha.2) json
    simpa [dotPath] using this
  have hgab : ∀ json, get json (dotPath [a, b]) = (gStart get json.length (plainPath a (c! '.') b) json >>= finish) := fun json => by
    have := get_dot (ks := [b]) ha.1 (.inl ha.2) json
    simpa [dotPath] using this
  by_cases hc : IsCont v
  · rcases isCont_cases hv hc with ⟨kvs, hobj⟩ | ⟨vs, harr⟩
    · rcases object_split (k := a) hobj with hmiss | ⟨before, kl, u, after, rfl, hkl, hbefore⟩
      · rw [hga, hgab]
        obtain ⟨w1, w2, h1, h2, rfl⟩ := hd
        rw [gStart_ws _ _ _ h1, gStart_cont _ _ _ hc, gStart_ws _ _ _ h1, gStart_cont _ _ _ hc]
        generalize (w1 ++ (v ++ w2)).length = L
        have : ∀ sep rest, gCont get L (plainPath a sep rest) (v ++ w2) = .ok (Value.default, plainPath a sep rest) := by
          intro sep rest
          obtain ⟨ms, a1, a2, a3, _, a5⟩ := gCont_obj get L (plainPath a sep rest) (q := w2) hobj
          rw [a5, gObjLoop_miss _ _ _ a1 a2]
          intro m hm
          have : (m.key, m.val) ∈ kvs := by rw [← a3]; exact List.mem_map_of_mem hm
          obtain ⟨s, y1, y2⟩ := hmiss _ this
          exact ⟨s, y1, by rw [pKeyMatch_plain]; simpa using y2⟩
        rw [this, this]
        exact .refl _
      · have hu : Resolves KeyIs v [a] u := .key hobj hbefore hkl .here
        by_cases hcu : IsCont u
        · rcases h with ⟨r, hr⟩ | h | h
          · obtain ⟨w, e1, e2⟩ := resolves_get hr pa (by simp) hd
            have hb' : ∃ r', Resolves KeyIs u [b] r' ∧ r' = r := by
              cases hr with
              | key ho' hb' hk' hr' =>
                rename_i kl' u' before' after'
                have hrb := resolves_get (.key ho' hb' hk' .here) (fun k hk => by simp at hk; subst hk; exact ha) (by simp) hd
                have hra := resolves_get hu (fun k hk => by simp at hk; subst hk; exact ha) (by simp) hd
                obtain ⟨x, x1, x2⟩ := hrb
                obtain ⟨y, y1, y2⟩ := hra
                rw [x1] at y1
                cases y1
                have : u' = u := x2.1.symm.trans y2.1
                subst this
                exact ⟨r, hr', rfl⟩
              | index ha' _ _ _ _ =>
                exact absurd (IsArray.kindOf ha') (by rw [IsObject.kindOf hobj]; decide)
            obtain ⟨_, hrb, rfl⟩ := hb'
            obtain ⟨x, x1, x2⟩ := resolves_get hu (fun k hk => by simp at hk; subst hk; exact ha) (by simp) hd
            replace x1 : get doc a = .ok x := x1
            have hux : IsValue u := (IsObject.mem_value hobj (kl, u) (by simp)).2
            obtain ⟨y, y1, y2⟩ := resolves_get hrb (fun k hk => by simp at hk; subst hk; exact hb) (by simp) (padded_self u)
            replace y1 : get u b = .ok y := y1
            rw [e1, x1]
            have hg := (getIn_same (get_prov x1).oneText b)
            rw [x2.1, y1] at hg
            refine SameRes.trans (.ok (sameAsText_same e2 y2)) hg.symm
          · have := h u hu
            unfold IsCont at hcu
            rcases hcu with hcu | hcu
            · exact absurd hcu this.1
            · exact absurd hcu this.2
          · rw [IsObject.kindOf hobj] at h; cases h
        · rw [hga, hgab]
          obtain ⟨w1, w2, h1, h2, rfl⟩ := hd
          rw [gStart_ws _ _ _ h1, gStart_cont _ _ _ hc, gStart_ws _ _ _ h1, gStart_cont _ _ _ hc]
          generalize (w1 ++ (v ++ w2)).length = L
          have : ∀ sep rest, ∃ i, gCont get L (plainPath a sep rest) (v ++ w2) = .ok (leafVal (some i) u, plainPath a sep rest) := by
            intro sep rest
            obtain ⟨ms, a1, a2, a3, _, a5⟩ := gCont_obj get L (plainPath a sep rest) (q := w2) hobj
            rw [a5]
            obtain ⟨hv', i, _, m, q', x1, x2, x3⟩ := gObjLoop_hit (fun v =>
                if (plainPath a sep rest).dives then gCont get L (pNext (plainPath a sep rest).extra) v
                else .ok (Value.default, plainPath a sep rest)) L (plainPath a sep rest) (r := w2) hkl
              (by rw [pKeyMatch_plain]; simp) a1 a2
              (fun m hm => by
                obtain ⟨s, y1, y2⟩ := hbefore m hm
                exact ⟨s, y1, by rw [pKeyMatch_plain]; simp [y2]⟩) a3
            rw [x3, if_neg (fun h => hcu h.2)]
            exact ⟨i, rfl⟩
          obtain ⟨i, hi⟩ := this (c! '.') b
          obtain ⟨j, hj⟩ := this 0 []
          rw [hi, hj]
          have one : ∀ i, OneText (leafVal i u) := fun i => by right; unfold leafVal mkVal; split <;> rfl
          exact getIn_congr_same (one _) (one _) (sameValue_leaf _ _ _) b
    · rw [hga, hgab]
      obtain ⟨w1, w2, h1, h2, rfl⟩ := hd
      rw [gStart_ws _ _ _ h1, gStart_cont _ _ _ hc, gStart_ws _ _ _ h1, gStart_cont _ _ _ hc,
        gCont_arr _ _ _ harr, gCont_arr _ _ _ harr, gArrVals_key _ ha.1, gArrVals_key _ ha.1]
      exact .refl _
  · rw [hga, hgab]
    obtain ⟨w1, w2, h1, h2, rfl⟩ := hd
    rw [gStart_ws _ _ _ h1, gStart_noCont _ _ _ (noCont_scalar hv hc w2),
      gStart_ws _ _ _ h1, gStart_noCont _ _ _ (noCont_scalar hv hc w2)]
    exact .refl _

end Gjson
