import Verif.Lemmas.Reads
import Verif.Lemmas.ModsText
import Verif.Props.Layout
import Verif.Props.Format
import Verif.Props.Multi
/-
The code obeys the rules of `Spec.Means` for multipaths and modifiers.
-/
namespace Gjson
open Spec

/-! ### Keys in multipaths -/

theorem escapeByte_quoted : ∀ c : UInt8, escapeByte c = quotedByte c := by
  have h : ∀ i : Fin 256, escapeByte (UInt8.ofNat i.val) = quotedByte (UInt8.ofNat i.val) := by decide +kernel
  intro c
  have := h ⟨c.toNat, c.toNat_lt⟩
  simpa using this

theorem jsonString_quoted (k : Bytes) : jsonString k = Spec.quoted k := by
  unfold jsonString Spec.quoted
  rw [show escapeByte = quotedByte from funext escapeByte_quoted]
  simp

/-! ### Multipaths -/

theorem mapM_gives {json : Bytes} {f : Bytes → Bytes} : ∀ {ps : List Bytes}, (∀ p ∈ ps, Gives (get json p) (f p)) →
    ∃ rs, ps.mapM (get json) = .ok rs ∧ Aligned (fun p r => Fits r (f p)) ps rs
  | [], _ => ⟨[], rfl, .nil⟩
  | p :: ps, h => by
    obtain ⟨w, h1, h2⟩ := h p (by simp)
    obtain ⟨rs, h3, h4⟩ := mapM_gives fun q hq => h q (List.mem_cons_of_mem _ hq)
    refine ⟨w :: rs, ?_, .cons h2 h4⟩
    rw [List.mapM_cons, h1, ok_bind, h3]
    rfl

theorem fits_exists {w : Value} {r : Bytes} (h : Fits w r) : w.exists = decide (r ≠ []) := by
  have he := exists_json (v := w)
  rw [h.1] at he
  by_cases hr : r = []
  · simp [hr] at he ⊢; exact he
  · simp [hr] at he ⊢; exact he

theorem existing_gives {f : Bytes → Bytes} {ps : List Bytes} {rs : List Value} (h : Aligned (fun p r => Fits r (f p)) ps rs) :
    existing rs = (ps.map f).filter fun x => x ≠ [] := by
  induction h with
  | nil => rfl
  | @cons p r ps rs h _ ih =>
    unfold existing at ih ⊢
    simp only [List.filter_cons, List.map_cons, fits_exists h]
    by_cases hx : f p = []
    · simp [hx] at ih ⊢; exact ih
    · simp [hx, h.1] at ih ⊢; exact ih

theorem members_gives {f : Bytes → Bytes} : ∀ {es : List (Bytes × Bytes)} {rs : List Value},
    Aligned (fun p r => Fits r (f p)) (es.map (·.2)) rs →
    members ((es.map (·.1)).zip rs) = (es.map fun e => (Spec.quoted e.1, f e.2)).filter fun m => m.2 ≠ []
  | [], rs, h => by cases h; rfl
  | e :: es, rs, h => by
    rw [List.map_cons] at h
    cases h with
    | @cons _ r _ rs h hr =>
      have ih := members_gives hr
      unfold members at ih ⊢
      simp only [List.map_cons, List.zip_cons_cons, List.filter_cons, fits_exists h]
      by_cases hx : f e.2 = []
      · simp [hx] at ih ⊢; exact ih
      · simp [hx, h.1, jsonString_quoted] at ih ⊢; exact ih

theorem Spec.Aligned.imp' {α β : Type} {R S : α → β → Prop} {as : List α} {bs : List β} (h : Aligned R as bs) (hi : ∀ a b, R a b → S a b) :
    Aligned S as bs := by
  induction h with
  | nil => exact .nil
  | cons h _ ih => exact .cons (hi _ _ h) ih

/-- What comes after a multipath or modifier. -/
theorem then_after {v : Value} {x t r rest : Bytes} {sep : UInt8} (h : ThenOk x t r) (ho : OneText v) (hf : Fits v x) (ht : Tail sep rest t) :
    Gives (if sep = 0 then .ok v else getIn get v rest) r := by
  have := h.2 v ⟨[], false, false, sep, 0, rest⟩ ho hf ht
  unfold finish Path.more at this
  by_cases h0 : sep = 0
  · rw [if_pos h0]; simpa [h0] using this
  · rw [if_neg h0]; simpa [h0] using this

theorem means_array {doc t r : Bytes} {ts : List Bytes} {es : List (Bytes × Bytes)} {f : Bytes → Bytes}
    (h : Aligned (fun t e => Entry t e.1 e.2) ts es) (hne : ts ≠ []) (hf : ∀ e ∈ es, Gives (get doc e.2) (f e.2))
    (ht : ThenOk (arrayText ((es.map fun e => f e.2).filter fun x => x ≠ [])) t r) :
    Gives (get doc (c! '[' :: (commaSep ts ++ c! ']' :: t))) r := by
  obtain ⟨sep, rest, hT⟩ := ht.1
  have hg := get_multi_arr (h.imp' fun _ _ => Spec.Entry.ent) hne hT doc
  obtain ⟨rs, h1, h2⟩ := mapM_gives (json := doc) (f := f) (ps := es.map (·.2)) (by
    intro p hp
    obtain ⟨e, he, rfl⟩ := List.mem_map.1 hp
    exact hf e he)
  have e : c! '[' :: (commaSep ts ++ c! ']' :: t) = c! '[' :: (commaSep ts ++ [c! ']']) ++ t := by simp
  rw [e, hg, h1, ok_bind]
  refine then_after ht (.inl rfl) ?_ hT
  have e2 := existing_gives h2
  rw [List.map_map] at e2
  refine fits_of ?_ (by rw [exists_json, multiArray, mkOwned_json]; simp [arrayText])
  rw [multiArray, mkOwned_json, e2]; rfl

theorem means_object {doc t r : Bytes} {ts : List Bytes} {es : List (Bytes × Bytes)} {f : Bytes → Bytes}
    (h : Aligned (fun t e => Entry t e.1 e.2) ts es) (hne : ts ≠ []) (hf : ∀ e ∈ es, Gives (get doc e.2) (f e.2))
    (ht : ThenOk (objectText ((es.map fun e => (Spec.quoted e.1, f e.2)).filter fun m => m.2 ≠ [])) t r) :
    Gives (get doc (c! '{' :: (commaSep ts ++ c! '}' :: t))) r := by
  obtain ⟨sep, rest, hT⟩ := ht.1
  have hg := get_multi_obj (h.imp' fun _ _ => Spec.Entry.ent) hne hT doc
  obtain ⟨rs, h1, h2⟩ := mapM_gives (json := doc) (f := f) (ps := es.map (·.2)) (by
    intro p hp
    obtain ⟨e, he, rfl⟩ := List.mem_map.1 hp
    exact hf e he)
  have e : c! '{' :: (commaSep ts ++ c! '}' :: t) = c! '{' :: (commaSep ts ++ [c! '}']) ++ t := by simp
  rw [e, hg, h1, ok_bind]
  refine then_after ht (.inl rfl) ?_ hT
  refine fits_of ?_ (by rw [exists_json, multiObject, mkOwned_json]; simp [objectText])
  rw [multiObject, mkOwned_json, members_gives h2]

/-! ### Modifiers -/

theorem kept_ok {out x : Bytes} (h : Kept out x) : Fits (jsonIntoOwned (pParse 0 out)) x := by
  have hs := sameValue_owned (pParse_oneText out 0)
  suffices Fits (pParse 0 out) x from ⟨hs.json.trans this.1, fun hx => hs.trans (this.2 hx)⟩
  cases h with
  | blank hw =>
    have := pParse_ws (s := []) hw 0
    rw [List.append_nil] at this
    rw [this]
    exact fits_default
  | scalar h1 h2 h3 hp =>
    obtain ⟨w1, w2, hw1, hw2, rfl⟩ := hp
    rw [pParse_ws hw1, pParse_scalar h1 (Follow.ws' hw2) ⟨h2, h3⟩]
    exact fits_of (leafVal_json _ _) (by rw [exists_json, leafVal_json]; exact IsValue.ne_nil h1)
  | @cont w _ hw hk =>
    rw [pParse_ws hw]
    cases x with
    | nil => simp [kindOf] at hk
    | cons c r =>
      have hc : c = c! '{' ∨ c = c! '[' := isCont_cons.1 hk
      rcases hc with rfl | rfl
      · have e : pParse (0 + w.length) (c! '{' :: r) = mkVal (c! '{' :: r) (some (0 + w.length)) (INFO_OBJECT ||| INFO_FOG) := by
          simp [pParse]
        rw [e]
        exact fits_of (mkVal_json _ _ _) (by rw [exists_json, mkVal_json]; simp)
      · have e : pParse (0 + w.length) (c! '[' :: r) = mkVal (c! '[' :: r) (some (0 + w.length)) (INFO_ARRAY ||| INFO_FOG) := by
          simp [pParse]
        rw [e]
        exact fits_of (mkVal_json _ _ _) (by rw [exists_json, mkVal_json]; simp)

theorem means_call {doc n a m out x t r : Bytes} (hm : ModCall n a m) (hw : modApply get n doc a = .ok out) (hk : Kept out x)
    (ht : ThenOk x t r) : Gives (get doc (m ++ t)) r := by
  obtain ⟨sep, rest, hT⟩ := ht.1
  rw [get_mod hm hT, hw, ok_bind]
  exact then_after ht (.inl rfl) (kept_ok hk) hT

theorem gives_has {a p x : Bytes} (h : Gives (get a p) x) : ∃ w, get a p = .ok w ∧ Has w x := by
  obtain ⟨w, h1, h2⟩ := h
  exact ⟨w, h1, h2, get_prov h1⟩

theorem writes_valid {a doc : Bytes} (h : JsonText doc) : modApply get b!"valid" doc a = .ok doc := by
  have e : modApply get b!"valid" doc a = modValid doc := rfl
  rw [e, modValid, (C01_valid_iff_rfc8259 doc).2 h]; rfl

theorem writes_invalid {a doc : Bytes} (h : ¬ JsonText doc) : modApply get b!"valid" doc a = .ok [] := by
  have e : modApply get b!"valid" doc a = modValid doc := rfl
  rw [e, modValid, (C01_valid_false_iff doc).2 h]; rfl

theorem writes_unknown {n a doc : Bytes} (h : n ∉ modNames) : modApply get n doc a = .ok [] := by
  unfold modNames at h
  simp only [List.mem_cons, List.not_mem_nil, or_false, not_or] at h
  obtain ⟨h1, h2, h3, h4, h5, h6, h7⟩ := h
  unfold modApply
  rw [if_neg h1, if_neg h3, if_neg h4, if_neg h5, if_neg h2, if_neg h6, if_neg h7]

theorem writes_reverseArray {a v doc : Bytes} {vs : List Bytes} (h : IsArray v vs) (hp : Padded v doc) :
    modApply get b!"reverse" doc a = .ok (arrayText vs.reverse) := by
  have e : modApply get b!"reverse" doc a = modReverse doc := rfl
  rw [e, modReverse_array h hp, joinComma_eq]
  simp [arrayText]

theorem writes_reverseObject {a doc : Bytes} {ms : List Member} (hw : ∀ m ∈ ms, m.Wf) (hv : ∀ m ∈ ms, IsValue m.val)
    (hp : Padded (c! '{' :: (membersText ms ++ [c! '}'])) doc) :
    modApply get b!"reverse" doc a = .ok (c! '{' :: (commaSep (ms.reverse.map Member.bare) ++ [c! '}'])) := by
  have e : modApply get b!"reverse" doc a = modReverse doc := rfl
  rw [e, modReverse_members hw hv hp, joinComma_eq, ← List.map_reverse]
  rfl

theorem writes_reverseEmpty {a w doc : Bytes} (hw : Ws w) (hp : Padded (c! '{' :: (w ++ [c! '}'])) doc) :
    modApply get b!"reverse" doc a = .ok b!"{}" := by
  have e : modApply get b!"reverse" doc a = modReverse doc := rfl
  obtain ⟨ms, _, h2, h3⟩ := modReverse_object (kvs := []) (.inl ⟨w, hw, rfl, rfl⟩) hp
  have : ms = [] := by simpa using h2
  rw [e, h3, this]
  rfl

theorem writes_reverseScalar {a v doc : Bytes} (hv : IsValue v) (h1 : kindOf v ≠ .object) (h2 : kindOf v ≠ .array) (hp : Padded v doc) :
    modApply get b!"reverse" doc a = .ok v := by
  have e : modApply get b!"reverse" doc a = modReverse doc := rfl
  rw [e, modReverse_scalar hv ⟨h1, h2⟩ hp]

theorem writes_ugly {a doc : Bytes} (h : JsonText doc) : modApply get b!"ugly" doc a = .ok (tokens doc).flatten := by
  have e : modApply get b!"ugly" doc a = ugly doc := rfl
  obtain ⟨out, h1, h2, _⟩ := C30_tokens h
  rw [e, h1, h2]

theorem writes_flatten {a v doc x : Bytes} {vs : List Bytes} (h : IsArray v vs) (hp : Padded v doc) (hx : Gives (get a b!"deep") x)
    (ht : Truth x false) : modApply get b!"flatten" doc a = .ok (arrayText (flatPieces vs)) := by
  have e : modApply get b!"flatten" doc a = modFlatten get doc a := rfl
  obtain ⟨w, h1, h2⟩ := gives_has hx
  rw [e, modFlatten_text h hp h1 (truth_ok h2 ht)]

theorem writes_flattenDeep {a v doc x : Bytes} {vs ls : List Bytes} (h : IsArray v vs) (hp : Padded v doc) (hx : Gives (get a b!"deep") x)
    (ht : Truth x true) (hd : DeepFlattened vs ls) : modApply get b!"flatten" doc a = .ok (arrayText ls) := by
  have e : modApply get b!"flatten" doc a = modFlattenN get (doc.length + 1) doc a := rfl
  obtain ⟨w, h1, h2⟩ := gives_has hx
  rw [e, (modFlattenN_deep h1 (truth_ok h2 ht) _ (by omega) h hp hd).1, joinComma_eq]
  simp [arrayText]

theorem writes_joinKeep {a v doc x : Bytes} {vs : List Bytes} (h : IsArray v vs) (hp : Padded v doc) (hx : Gives (get a b!"preserve") x)
    (ht : Truth x true) : modApply get b!"join" doc a = .ok (c! '{' :: (commaSep (keptPieces vs) ++ [c! '}'])) := by
  have e : modApply get b!"join" doc a = modJoin get doc a := rfl
  obtain ⟨w, h1, h2⟩ := gives_has hx
  rw [e, modJoin_text h hp h1 (truth_ok h2 ht)]

theorem writes_join {a v doc x : Bytes} {vs : List Bytes} {mss : List (List (Bytes × Bytes))} {dec : Bytes → Bytes} (h : IsArray v vs)
    (hp : Padded v doc) (hx : Gives (get a b!"preserve") x) (ht : Truth x false) (ho : ObjectsOf vs mss)
    (hd : ∀ m ∈ mss.flatten, Content m.1 (dec m.1)) :
    modApply get b!"join" doc a = .ok (objectText (mergeMembers dec mss.flatten)) := by
  have e : modApply get b!"join" doc a = modJoin get doc a := rfl
  obtain ⟨w, h1, h2⟩ := gives_has hx
  rw [e, modJoin_merged h hp ho (fun m hm => content_keyIs (hd m hm)) h1 (truth_ok h2 ht), joinComma_eq]
  simp [objectText]

theorem writes_noArray {n a v doc : Bytes} (hn : n = b!"flatten" ∨ n = b!"join") (h : IsValue v) (hk : kindOf v ≠ .array)
    (hp : Padded v doc) : modApply get n doc a = .ok doc := by
  rcases hn with rfl | rfl
  · exact modFlatten_other h hk hp
  · exact modJoin_other h hk hp

theorem writes_noneArray {n a : Bytes} (hn : n = b!"flatten" ∨ n = b!"join") : modApply get n [] a = .ok [] := by
  rcases hn with rfl | rfl <;> rfl

theorem u32_min {w : Value} {n : Nat} (h : w.u64 = .ok n) : w.u32 = .ok (min n (2 ^ 32 - 1)) := by
  unfold Value.u32
  rw [h, ok_bind]
  unfold wrapUnsigned
  congr 1
  split
  · rw [Nat.min_eq_right (by omega)]; decide
  · rw [Nat.min_eq_left (by omega), Nat.mod_eq_of_lt (by omega)]

theorem writes_pretty {a v doc xi xp xs xw indent pfx : Bytes} {d : Doc} {sort : Bool} {n : Nat} {width : Nat} (hp : Padded v doc)
    (hd : Denotes v d) (gi : Gives (get a b!"indent") xi)
    (hi : xi = [] ∧ indent = b!"  " ∨ xi ≠ [] ∧ StrVal xi indent) (gp : Gives (get a b!"prefix") xp) (hx : StrVal xp pfx)
    (gs : Gives (get a b!"sortKeys") xs) (hs : Truth xs sort) (gw : Gives (get a b!"width") xw)
    (hw : xw = [] ∧ width = 80 ∨ xw ≠ [] ∧ UnsignedVal xw n ∧ width = min n (2 ^ 32 - 1)) :
    modApply get b!"pretty" doc a = .ok (pfx ++ (d.laid ⟨width, pfx, indent⟩ sort 499 ++ b!"\n")) := by
  obtain ⟨vi, h1, k1⟩ := gives_has gi
  obtain ⟨vp, h2, k2⟩ := gives_has gp
  obtain ⟨vs, h3, k3⟩ := gives_has gs
  obtain ⟨vw, h4, k4⟩ := gives_has gw
  refine modPretty_laid hp hd h1 h2 h3 h4 ⟨fun he => ?_, fun he => ?_⟩ ⟨fun _ => strVal_ok k2 hx, fun he => ?_⟩
    ⟨fun _ => truth_ok k3 hs, fun he => ?_⟩ ⟨fun he => ?_, fun he => ?_⟩
  · rcases hi with ⟨rfl, _⟩ | ⟨_, hi⟩
    · rw [fits_exists k1.1] at he; simp at he
    · exact strVal_ok k1 hi
  · rcases hi with ⟨_, hi⟩ | ⟨hne, _⟩
    · exact hi
    · rw [fits_exists k1.1] at he; simp [hne] at he
  · rw [fits_exists k2.1] at he
    have : xp = [] := by simpa using he
    subst this
    have := strVal_ok k2 hx
    rw [k2.none.str] at this
    exact (Except.ok.inj this).symm
  · rw [fits_exists k3.1] at he
    have : xs = [] := by simpa using he
    subst this
    have := truth_ok k3 hs
    rw [k3.none.bool] at this
    exact (Except.ok.inj this).symm
  · rcases hw with ⟨rfl, _⟩ | ⟨_, hw, rfl⟩
    · rw [fits_exists k4.1] at he; simp at he
    · exact u32_min (unsignedVal_ok k4 hw)
  · rcases hw with ⟨_, hw⟩ | ⟨hne, _⟩
    · exact hw
    · rw [fits_exists k4.1] at he; simp [hne] at he

theorem prettyOptions_nil (o : PrettyOptions) : prettyOptions [] o = .ok (if o.pfx = [] then [] else o.pfx ++ b!"\n") := by
  have : ∀ a tabs max depth buf i nl, prettyAny [] 1 a tabs max depth buf i nl = .ok (buf, i, nl, true) := by
    intro a tabs max depth buf i nl
    simp [prettyAny, prettyAnyLoop]
  unfold prettyOptions
  rw [show ([] : Bytes).length + 1 = 1 from rfl]
  simp only [this, ok_bind]
  cases o.pfx <;> simp

theorem writes_prettyNone {a x pfx : Bytes} (gp : Gives (get a b!"prefix") x) (hx : StrVal x pfx) :
    modApply get b!"pretty" [] a = .ok (if pfx = [] then [] else pfx ++ b!"\n") := by
  have e : modApply get b!"pretty" [] a = modPretty get [] a := rfl
  obtain ⟨vp, h2, k2⟩ := gives_has gp
  have hs := strVal_ok k2 hx
  have hnone : vp.exists = false → pfx = [] := by
    intro he
    rw [fits_exists k2.1] at he
    have : x = [] := by simpa using he
    subst this
    rw [k2.none.str] at hs
    exact (Except.ok.inj hs).symm
  rw [e]
  obtain ⟨out, ho⟩ := modPretty_ok [] a
  rw [ho]
  unfold modPretty at ho
  split at ho
  · obtain ⟨vi, h1, ho⟩ := bind_eq_ok.1 ho
    obtain ⟨vp', h2', ho⟩ := bind_eq_ok.1 ho
    rw [h2] at h2'; cases h2'
    obtain ⟨vs, h3, ho⟩ := bind_eq_ok.1 ho
    obtain ⟨vw, h4, ho⟩ := bind_eq_ok.1 ho
    obtain ⟨o1, g1, ho⟩ := bind_eq_ok.1 ho
    obtain ⟨o2, g2, ho⟩ := bind_eq_ok.1 ho
    obtain ⟨o3, g3, ho⟩ := bind_eq_ok.1 ho
    obtain ⟨o4, g4, ho⟩ := bind_eq_ok.1 ho
    rw [prettyOptions_nil] at ho
    have e1 : o1.pfx = [] := by
      unfold optIndent at g1
      split at g1
      · obtain ⟨s, _, g1⟩ := bind_eq_ok.1 g1
        cases g1; rfl
      · cases g1; rfl
    have e2 : o2.pfx = pfx := by
      unfold optPrefix at g2
      split at g2
      · rw [hs] at g2
        cases g2; rfl
      · rename_i hh
        cases g2
        rw [e1, hnone (by simpa using hh)]
    have e3 : o3.pfx = pfx := by
      unfold optSortKeys at g3
      split at g3
      · obtain ⟨s, _, g3⟩ := bind_eq_ok.1 g3
        cases g3; exact e2
      · cases g3; exact e2
    have e4 : o4.pfx = pfx := by
      rw [← e3]; exact (optWidth_fields g4).1
    rw [e4] at ho
    exact ho.symm
  · rename_i hl
    have ha : a = [] := by cases a <;> simp at hl ⊢
    subst ha
    have k1 : get [] b!"prefix" = .ok Value.default := by decide +kernel
    rw [k1] at h2
    cases h2
    rw [hnone rfl, ← ho]
    decide +kernel

end Gjson
