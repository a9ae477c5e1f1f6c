import Verif.Lemmas.PrettyDeep
import Verif.Lemmas.Resort
import Verif.Lemmas.UglyDoc
import Verif.Lemmas.PrettyOk
import Verif.Lemmas.Mod
import Verif.Lemmas.Prov
import Verif.Lemmas.Dot
import Verif.Props.Valid
/-
C30 (`ugly` removes exactly the insignificant whitespace), C31 (`pretty` changes only
whitespace) and C38 (`sort_keys` orders members).

`tokens`, `Doc`, `Denotes` and `Doc.sort` are defined in `Verif/SpecDoc.lean`.
-/
namespace Gjson
open Spec

/-- What a modifier call gives when the modifier produces the value text `v`, maybe
with whitespace around it. -/
theorem get_mod_value {n a m : Bytes} (hm : ModCall n a m) {text out v : Bytes} (ho : modApply get n text a = .ok out)
    (hv : IsValue v) (hp : Padded v out) :
    ∃ p r, parse out = .ok p ∧ get text m = .ok r ∧ SameValue r p ∧ r.kind = kindOf v ∧ Padded v r.json := by
  have := get_mod hm (t := []) (sep := 0) (rest := []) ⟨rfl, rfl⟩ text
  rw [List.append_nil, ho] at this
  have hs := sameValue_owned (pParse_oneText out 0)
  refine ⟨pParse 0 out, jsonIntoOwned (pParse 0 out), parse_eq out, this, hs, ?_⟩
  obtain ⟨w1, w2, hw1, hw2, rfl⟩ := hp
  rw [hs.kind, hs.json, pParse_ws hw1]
  by_cases hk : kindOf v = .object ∨ kindOf v = .array
  · obtain ⟨h1, h2⟩ := pParse_cont (r := w2) hv hk (0 + w1.length)
    have e := mkVal_kind (v ++ w2) (some (0 + w1.length)) (infoOf v ||| INFO_FOG)
    rw [h1, e, mkVal_json]
    refine ⟨?_, [], w2, ws_nil, hw2, rfl⟩
    rcases hk with hk | hk
    · rw [hk]
      obtain ⟨c, q, rfl, _⟩ := IsValue.cons hv
      have hc : c = c! '{' := by simp only [kindOf] at hk; grind
      subst hc
      show kindMap ((INFO_OBJECT ||| INFO_FOG) <<< 24 >>> 24) = .object
      decide
    · rw [hk]
      obtain ⟨c, q, rfl, _⟩ := IsValue.cons hv
      have hc : c = c! '[' := by simp only [kindOf] at hk; grind
      subst hc
      show kindMap ((INFO_ARRAY ||| INFO_FOG) <<< 24 >>> 24) = .array
      decide
  · rw [pParse_scalar hv (Follow.ws' hw2) ⟨fun h => hk (.inl h), fun h => hk (.inr h)⟩]
    obtain ⟨h1, h2, _⟩ := leaf_sameAsText hv (some (0 + w1.length))
    exact ⟨h2, [], [], ws_nil, ws_nil, by rw [h1]; simp⟩

/-! ### C30 -/

/-- C30: `ugly` gives the same again when applied to its result, for every byte
string. -/
theorem C30_idempotent (json : Bytes) : ∃ out, ugly json = .ok out ∧ ugly out = .ok out :=
  ⟨_, ugly_eq json, by rw [ugly_eq, pUgly_idem]⟩

example : ugly b!" {\"a\\\\\" : [ 1 ,\"x y" = .ok b!"{\"a\\\\\":[1,\"x y" := by decide +kernel

/-- The tokens of a document are strings or contain no whitespace. -/
theorem toks_clean' {v : Bytes} {d : Doc} (h : Denotes v d) : ∀ tok ∈ d.toks, StrLit tok ∨ ∀ c ∈ tok, ¬ IsWs c := by
  have hel : ∀ (ds : List Doc) tok, tok ∈ elemToks ds → tok = [c! ','] ∨ ∃ d ∈ ds, tok ∈ d.toks := by
    intro ds
    induction ds with
    | nil => simp [elemToks]
    | cons d r ih =>
      intro tok ht
      cases r with
      | nil => simp only [elemToks] at ht; exact .inr ⟨d, by simp, ht⟩
      | cons e r =>
        simp only [elemToks, List.mem_append, List.mem_cons] at ht
        rcases ht with ht | rfl | ht
        · exact .inr ⟨d, by simp, ht⟩
        · exact .inl rfl
        · rcases ih tok ht with h | ⟨x, h1, h2⟩
          · exact .inl h
          · exact .inr ⟨x, List.mem_cons_of_mem _ h1, h2⟩
  have hme : ∀ (ms : List (Bytes × Doc)) tok, tok ∈ memToks ms → tok = [c! ','] ∨ tok = [c! ':'] ∨ ∃ m ∈ ms, tok = m.1 ∨ tok ∈ m.2.toks := by
    intro ms
    induction ms with
    | nil => simp [memToks]
    | cons m r ih =>
      obtain ⟨k, d⟩ := m
      intro tok ht
      cases r with
      | nil =>
        simp only [memToks, List.mem_cons] at ht
        rcases ht with rfl | rfl | ht
        · exact .inr (.inr ⟨_, List.mem_cons_self, .inl rfl⟩)
        · exact .inr (.inl rfl)
        · exact .inr (.inr ⟨_, List.mem_cons_self, .inr ht⟩)
      | cons e r =>
        simp only [memToks, List.mem_append, List.mem_cons] at ht
        rcases ht with rfl | rfl | ht | rfl | ht
        · exact .inr (.inr ⟨_, List.mem_cons_self, .inl rfl⟩)
        · exact .inr (.inl rfl)
        · exact .inr (.inr ⟨_, List.mem_cons_self, .inr ht⟩)
        · exact .inl rfl
        · rcases ih tok ht with h | h | ⟨x, h1, h2⟩
          · exact .inl h
          · exact .inr (.inl h)
          · exact .inr (.inr ⟨x, List.mem_cons_of_mem _ h1, h2⟩)
  induction h with
  | @leaf t hv h1 h2 =>
    intro tok ht
    simp only [Doc.toks, List.mem_singleton] at ht
    subst ht
    rcases leaf_bytes hv h1 h2 with h | ⟨_, h⟩
    · exact .inl h
    · exact .inr fun c hc hw => by have := ws_le hw; have := (h c hc).1; grind
  | arrEmpty _ => intro tok ht; right; simp [Doc.toks, elemToks] at ht; rcases ht with rfl | rfl <;> decide
  | @arr es _ hw _ ih =>
    intro tok ht
    simp only [Doc.toks, List.mem_cons, List.mem_append, List.not_mem_nil, or_false] at ht
    rcases ht with rfl | ht | rfl
    · right; decide
    · rcases hel _ _ ht with rfl | ⟨d, h1, h2⟩
      · right; decide
      · obtain ⟨e, h3, rfl⟩ := List.mem_map.1 h1
        exact ih e h3 tok h2
    · right; decide
  | objEmpty _ => intro tok ht; right; simp [Doc.toks, memToks] at ht; rcases ht with rfl | rfl <;> decide
  | @obj ms _ hw _ ih =>
    intro tok ht
    simp only [Doc.toks, List.mem_cons, List.mem_append, List.not_mem_nil, or_false] at ht
    rcases ht with rfl | ht | rfl
    · right; decide
    · rcases hme _ _ ht with rfl | rfl | ⟨d, h1, h2⟩
      · right; decide
      · right; decide
      · obtain ⟨e, h3, rfl⟩ := List.mem_map.1 h1
        rcases h2 with rfl | h2
        · exact .inl (hw e h3).2.1
        · exact ih e h3 tok h2
    · right; decide

theorem jsonText_doc {t : Bytes} (h : JsonText t) : ∃ v d, Padded v t ∧ Denotes v d := by
  obtain ⟨w1, v, w2, rfl, h1, h2, hv⟩ := h
  obtain ⟨d, hd⟩ := denotes_of_value hv
  exact ⟨v, d, ⟨w1, w2, h1, h2, rfl⟩, hd⟩

theorem tokens_padded {v t : Bytes} {d : Doc} (hp : Padded v t) (h : Denotes v d) : tokens t = d.toks := by
  obtain ⟨w1, w2, h1, h2, rfl⟩ := hp
  rw [tokens_ws h1, tokens_value h _ (Follow.break (Follow.ws' h2))]
  have : tokens (w2 ++ []) = tokens [] := tokens_ws h2 []
  rw [List.append_nil] at this
  rw [this, tokens_nil, List.append_nil]

/-- C30: for a JSON text `ugly` gives the tokens of the text, one after the other: a
JSON text again, with the same tokens, all of which are string literals or contain no
whitespace. -/
theorem C30_tokens {t : Bytes} (h : JsonText t) :
    ∃ out, ugly t = .ok out ∧ out = (tokens t).flatten ∧ tokens out = tokens t ∧ valid out = .ok true ∧
      ∀ tok ∈ tokens t, StrLit tok ∨ ∀ c ∈ tok, ¬ IsWs c := by
  obtain ⟨v, d, hp, hd⟩ := jsonText_doc h
  have e : tokens t = d.toks := tokens_padded hp hd
  have hb := denotes_bare hd
  refine ⟨_, ugly_eq t, ?_, ?_, ?_, ?_⟩
  · rw [pUgly_padded hd hp, e]
  · rw [pUgly_padded hd hp, e, tokens_value' hb]
  · rw [pUgly_padded hd hp]
    exact (C01_valid_iff_rfc8259 _).2 ⟨[], _, [], by simp, ws_nil, ws_nil, value_of_denotes hb⟩
  · rw [e]; exact toks_clean' hd

/-- C30: the result of `ugly` represents the same document. -/
theorem C30_document {t v : Bytes} {d : Doc} (hp : Padded v t) (hd : Denotes v d) :
    ∃ out, ugly t = .ok out ∧ Denotes out d :=
  ⟨_, ugly_eq t, by rw [pUgly_padded hd hp]; exact denotes_bare hd⟩

/-- C30: `@ugly` gives the value with that text. -/
theorem C30_modifier {t : Bytes} (h : JsonText t) {a m : Bytes} (hm : ModCall b!"ugly" a m) :
    ∃ r, get t m = .ok r ∧ SameAsText r (tokens t).flatten := by
  obtain ⟨v, d, hp, hd⟩ := jsonText_doc h
  have hb := denotes_bare hd
  have e : tokens t = d.toks := tokens_padded hp hd
  have ho : modApply get b!"ugly" t a = .ok (tokens t).flatten := by
    have : modApply get b!"ugly" t a = modUgly t := rfl
    rw [this, modUgly, ugly_eq, pUgly_padded hd hp, e]
  have hv : IsValue (tokens t).flatten := by rw [e]; exact value_of_denotes hb
  have hg := get_mod hm (t := []) (sep := 0) (rest := []) ⟨rfl, rfl⟩ t
  rw [List.append_nil, ho] at hg
  have hs := sameValue_owned (pParse_oneText (tokens t).flatten 0)
  obtain ⟨h4, h5, w, h6, h7⟩ := leaf_sameAsText hv (some 0)
  rw [parse_eq] at h6
  cases h6
  exact ⟨_, hg, (hs.json.trans h7.json.symm).trans h4, (hs.kind.trans h7.kind.symm).trans h5, _, parse_eq _, hs⟩

example : JsonText b!" {\"a b\" : [ 1 , true ]}\n" := (C01_valid_iff_rfc8259 _).1 (by decide +kernel)
example : ugly b!" {\"a b\" : [ 1 , true ]}\n" = .ok b!"{\"a b\":[1,true]}" := by decide +kernel
example : ModCall b!"ugly" [] b!"@ugly" := .bare (by decide)

/-! ### C31 -/

/-- C31: with any width and with a prefix and an indent of whitespace, `pretty` gives
a text with the same tokens; `ugly` of both texts is the same. -/
theorem C31_ugly {t : Bytes} (h : JsonText t) {o : PrettyOptions} (hpfx : Ws o.pfx) (hind : Ws o.indent)
    (hsort : o.sortKeys = false) :
    ∃ out u, prettyOptions t o = .ok out ∧ tokens out = tokens t ∧ valid out = .ok true ∧ ugly out = .ok u ∧ ugly t = .ok u := by
  obtain ⟨v, d, hp, hd⟩ := jsonText_doc h
  obtain ⟨out, ho⟩ := prettyOptions_ok t o
  have h1 := prettyOptions_tokens hd hp hpfx hind (by simp [hsort]) ho
  rw [hsort] at h1
  obtain ⟨v', hp', hd'⟩ := denotes_of_tokens hd h1
  refine ⟨out, _, ho, ?_, ?_, ugly_eq out, ?_⟩
  · rw [h1, tokens_padded hp hd]; rfl
  · obtain ⟨w1, w2, hw1, hw2, e⟩ := hp'
    exact (C01_valid_iff_rfc8259 _).2 ⟨w1, v', w2, e, hw1, hw2, value_of_denotes hd'⟩
  · rw [ugly_eq, pUgly_padded hd' hp', pUgly_padded hd hp]

/-- C31: the result of `pretty` represents the same document. -/
theorem C31_document {t v : Bytes} {d : Doc} (hp : Padded v t) (hd : Denotes v d) {o : PrettyOptions} (hpfx : Ws o.pfx)
    (hind : Ws o.indent) (hsort : o.sortKeys = false) :
    ∃ out v', prettyOptions t o = .ok out ∧ Padded v' out ∧ Denotes v' d := by
  obtain ⟨out, ho⟩ := prettyOptions_ok t o
  have h1 := prettyOptions_tokens hd hp hpfx hind (by simp [hsort]) ho
  rw [hsort] at h1
  obtain ⟨v', hp', hd'⟩ := denotes_of_tokens hd h1
  exact ⟨out, v', ho, hp', hd'⟩

example : prettyOptions b!"{\"b\":[1,2],\"a\":{}}" ⟨4, b!"\t", b!" ", false⟩ =
    .ok b!"\t{\n\t \"b\": [\n\t  1,\n\t  2\n\t ],\n\t \"a\": {}\n\t}\n" := by decide +kernel
example : Ws (b!"\t") ∧ Ws (b!" ") := by decide

theorem setWidth_fields (o : PrettyOptions) (w : Nat) :
    (o.setWidth w).pfx = o.pfx ∧ (o.setWidth w).indent = o.indent ∧ (o.setWidth w).sortKeys = o.sortKeys := by
  unfold PrettyOptions.setWidth
  exact ⟨rfl, rfl, rfl⟩

attribute [local irreducible] PrettyOptions.setWidth in
theorem optWidth_fields {o o' : PrettyOptions} {v : Value} (h : optWidth o v = .ok o') :
    o'.pfx = o.pfx ∧ o'.indent = o.indent ∧ o'.sortKeys = o.sortKeys := by
  unfold optWidth at h
  split at h
  · obtain ⟨w, _, h⟩ := bind_eq_ok.1 h
    rw [← Except.ok.inj h]
    exact setWidth_fields o w
  · cases h; exact ⟨rfl, rfl, rfl⟩

/-- What `@pretty` reads from its argument. -/
theorem modPretty_options {arg text out : Bytes} (h : modPretty get text arg = .ok out) {ri rp rs : Value} {si sp : Bytes} {b : Bool}
    (hi : get arg b!"indent" = .ok ri) (hi2 : ri.str = .ok si) (hp : get arg b!"prefix" = .ok rp) (hp2 : rp.str = .ok sp)
    (hs : get arg b!"sortKeys" = .ok rs) (hs2 : rs.bool = .ok b) (wi : Ws si) (wp : Ws sp) :
    ∃ o, prettyOptions text o = .ok out ∧ Ws o.pfx ∧ Ws o.indent ∧ (rs.exists = true ∨ b = false → o.sortKeys = b) := by
  unfold modPretty at h
  split at h
  · rw [hi, hp, hs] at h
    simp only [ok_bind] at h
    obtain ⟨rw', _, h⟩ := bind_eq_ok.1 h
    obtain ⟨o1, h1, h⟩ := bind_eq_ok.1 h
    obtain ⟨o2, h2, h⟩ := bind_eq_ok.1 h
    obtain ⟨o3, h3, h⟩ := bind_eq_ok.1 h
    obtain ⟨o4, h4, h⟩ := bind_eq_ok.1 h
    have e1 : Ws o1.pfx ∧ Ws o1.indent ∧ o1.sortKeys = false := by
      unfold optIndent at h1
      split at h1
      · rw [hi2] at h1; cases h1; exact ⟨ws_nil, wi, rfl⟩
      · cases h1; exact ⟨ws_nil, by decide, rfl⟩
    have e2 : Ws o2.pfx ∧ Ws o2.indent ∧ o2.sortKeys = false := by
      unfold optPrefix at h2
      split at h2
      · rw [hp2] at h2; cases h2; exact ⟨wp, e1.2.1, e1.2.2⟩
      · cases h2; exact e1
    have e3 : Ws o3.pfx ∧ Ws o3.indent ∧ (rs.exists = true ∨ b = false → o3.sortKeys = b) := by
      unfold optSortKeys at h3
      split at h3
      · rw [hs2] at h3; cases h3; exact ⟨e2.1, e2.2.1, fun _ => rfl⟩
      · rename_i hne
        cases h3
        refine ⟨e2.1, e2.2.1, fun h => ?_⟩
        rcases h with h | rfl
        · exact absurd h hne
        · exact e2.2.2
    refine ⟨o4, h, ?_⟩
    obtain ⟨w1, w2, w3⟩ := optWidth_fields h4
    rw [w1, w2, w3]
    exact e3
  · rename_i hl
    have : arg = [] := by cases arg <;> simp at hl ⊢
    subst this
    refine ⟨_, h, ws_nil, by decide, fun hb => ?_⟩
    rcases hb with hb | rfl
    · have : get [] b!"sortKeys" = .ok Value.default := by decide +kernel
      rw [this] at hs
      cases hs
      exact absurd hb (by decide)
    · rfl

/-- C31: `@pretty`, with an argument that asks for whitespace as indent and prefix (or
does not mention them) and not for sorting, gives the same document. -/
theorem C31_modifier {t v : Bytes} {d : Doc} (hp : Padded v t) (hd : Denotes v d) {a m : Bytes} (hm : ModCall b!"pretty" a m)
    (hi : ∃ r s, get a b!"indent" = .ok r ∧ r.str = .ok s ∧ Ws s) (hx : ∃ r s, get a b!"prefix" = .ok r ∧ r.str = .ok s ∧ Ws s)
    (hs : ∃ r, get a b!"sortKeys" = .ok r ∧ r.bool = .ok false) :
    ∃ r v', get t m = .ok r ∧ r.kind = kindOf v' ∧ Padded v' r.json ∧ Denotes v' d := by
  obtain ⟨ri, si, hi1, hi2, hi3⟩ := hi
  obtain ⟨rp, sp, hx1, hx2, hx3⟩ := hx
  obtain ⟨rs, hs1, hs2⟩ := hs
  obtain ⟨out, ho⟩ := modPretty_ok t a
  obtain ⟨o, h1, h2, h3, h4⟩ := modPretty_options ho hi1 hi2 hx1 hx2 hs1 hs2 hi3 hx3
  obtain ⟨out', v', h5, h6, h7⟩ := C31_document hp hd h2 h3 (h4 (.inr rfl))
  rw [h1] at h5
  cases h5
  obtain ⟨_, r, _, h8, _, h9, h10⟩ := get_mod_value hm (show modApply get b!"pretty" t a = .ok out from ho) (value_of_denotes h7) h6
  exact ⟨r, v', h8, h9, h10, h7⟩

/-- `@pretty` without an argument. -/
theorem C31_modifier_bare {t v : Bytes} {d : Doc} (hp : Padded v t) (hd : Denotes v d) :
    ∃ r v', get t b!"@pretty" = .ok r ∧ r.kind = kindOf v' ∧ Padded v' r.json ∧ Denotes v' d :=
  C31_modifier hp hd (.bare (by decide)) ⟨Value.default, [], by decide +kernel, rfl, ws_nil⟩
    ⟨Value.default, [], by decide +kernel, rfl, ws_nil⟩ ⟨Value.default, by decide +kernel, rfl⟩

/-! ### C38 -/

theorem insertMember_perm (a : Bytes × Doc) (l : List (Bytes × Doc)) : (insertMember a l).Perm (a :: l) := by
  induction l with
  | nil => exact .refl _
  | cons b r ih =>
    unfold insertMember
    split
    · exact .refl _
    · exact (List.Perm.cons b ih).trans (List.Perm.swap a b r)

theorem insertMember_sorted (a : Bytes × Doc) {l : List (Bytes × Doc)} (h : l.Pairwise fun x y => rawKey x.1 ≤ rawKey y.1) :
    (insertMember a l).Pairwise fun x y => rawKey x.1 ≤ rawKey y.1 := by
  induction l with
  | nil => simp [insertMember]
  | cons b r ih =>
    have hb := List.pairwise_cons.1 h
    unfold insertMember
    split
    · rename_i hle
      refine List.pairwise_cons.2 ⟨fun x hx => ?_, h⟩
      rcases List.mem_cons.1 hx with rfl | hx
      · exact hle
      · exact List.le_trans hle (hb.1 x hx)
    · rename_i hle
      refine List.pairwise_cons.2 ⟨fun x hx => ?_, ih hb.2⟩
      rcases List.mem_cons.1 ((insertMember_perm a r).mem_iff.1 hx) with rfl | hx
      · exact List.le_of_lt (List.not_le.1 hle)
      · exact hb.1 x hx

theorem insertMember_filter (k : Bytes) (a : Bytes × Doc) (l : List (Bytes × Doc)) :
    (insertMember a l).filter (fun m => rawKey m.1 = k) = (a :: l).filter (fun m => rawKey m.1 = k) := by
  induction l with
  | nil => rfl
  | cons b r ih =>
    unfold insertMember
    split
    · rfl
    · rename_i hle
      rw [List.filter_cons, ih]
      have : ¬ (rawKey a.1 = k ∧ rawKey b.1 = k) := fun ⟨h1, h2⟩ => hle (by rw [h1, h2]; exact List.le_refl _)
      by_cases h1 : rawKey a.1 = k <;> by_cases h2 : rawKey b.1 = k <;> simp [h1, h2]
      exact absurd ⟨h1, h2⟩ this

/-- What `sortMembers` (in the definition of `Doc.sort`) does: the same members, in
the order of the bytes of their keys, members with the same key in their old order. -/
theorem C38_order (ms : List (Bytes × Doc)) :
    (sortMembers ms).Perm ms ∧ (sortMembers ms).Pairwise (fun x y => rawKey x.1 ≤ rawKey y.1) ∧
      ∀ k, (sortMembers ms).filter (fun m => rawKey m.1 = k) = ms.filter (fun m => rawKey m.1 = k) := by
  induction ms with
  | nil => exact ⟨.refl _, .nil, fun _ => rfl⟩
  | cons a r ih =>
    refine ⟨(insertMember_perm _ _).trans (.cons _ ih.1), insertMember_sorted _ ih.2.1, fun k => ?_⟩
    rw [sortMembers, insertMember_filter, List.filter_cons, List.filter_cons, ih.2.2]

theorem denotable_arr {ds : List Doc} (h : ∀ d ∈ ds, ∃ v, Denotes v d) : ∃ v, Denotes v (.arr ds) := by
  cases ds with
  | nil => exact ⟨_, .arrEmpty ws_nil⟩
  | cons d r =>
    have : ∀ l : List Doc, (∀ d ∈ l, ∃ v, Denotes v d) → ∃ es : List (Elem × Doc), es.map Prod.snd = l ∧ (∀ e ∈ es, e.1.Wf) ∧ ∀ e ∈ es, Denotes e.1.val e.2 := by
      intro l
      induction l with
      | nil => exact fun _ => ⟨[], rfl, by simp, by simp⟩
      | cons d r ih =>
        intro h
        obtain ⟨es, h1, h2, h3⟩ := ih fun x hx => h x (List.mem_cons_of_mem _ hx)
        obtain ⟨v, hv⟩ := h d List.mem_cons_self
        refine ⟨(⟨[], v, []⟩, d) :: es, by rw [List.map_cons, h1], ?_, ?_⟩
        · exact List.forall_mem_cons.2 ⟨⟨ws_nil, ws_nil⟩, h2⟩
        · exact List.forall_mem_cons.2 ⟨hv, h3⟩
    obtain ⟨es, h1, h2, h3⟩ := this _ h
    rw [← h1]
    exact ⟨_, .arr (by rintro rfl; cases h1) h2 h3⟩

theorem denotable_obj {ms : List (Bytes × Doc)} (h : ∀ m ∈ ms, StrLit m.1 ∧ ∃ v, Denotes v m.2) : ∃ v, Denotes v (.obj ms) := by
  cases ms with
  | nil => exact ⟨_, .objEmpty ws_nil⟩
  | cons d r =>
    have : ∀ l : List (Bytes × Doc), (∀ m ∈ l, StrLit m.1 ∧ ∃ v, Denotes v m.2) →
        ∃ es : List (Member × Doc), (es.map fun m => (m.1.key, m.2)) = l ∧ (∀ e ∈ es, e.1.Wf) ∧ ∀ e ∈ es, Denotes e.1.val e.2 := by
      intro l
      induction l with
      | nil => exact fun _ => ⟨[], rfl, by simp, by simp⟩
      | cons d r ih =>
        intro h
        obtain ⟨es, h1, h2, h3⟩ := ih fun x hx => h x (List.mem_cons_of_mem _ hx)
        obtain ⟨hk, v, hv⟩ := h d List.mem_cons_self
        refine ⟨(⟨[], d.1, [], [], v, []⟩, d.2) :: es, by rw [List.map_cons, h1], ?_, ?_⟩
        · exact List.forall_mem_cons.2 ⟨⟨ws_nil, hk, ws_nil, ws_nil, ws_nil⟩, h2⟩
        · exact List.forall_mem_cons.2 ⟨hv, h3⟩
    obtain ⟨es, h1, h2, h3⟩ := this _ h
    rw [← h1]
    exact ⟨_, .obj (by rintro rfl; cases h1) h2 h3⟩

theorem denotable_sort {v : Bytes} {d : Doc} (h : Denotes v d) : ∃ v', Denotes v' d.sort := by
  induction h with
  | leaf h h1 h2 => exact ⟨_, .leaf h h1 h2⟩
  | arrEmpty _ => exact ⟨_, .arrEmpty ws_nil⟩
  | @arr es _ hw _ ih =>
    rw [Doc.sort, sortElems_eq]
    refine denotable_arr fun d hd => ?_
    simp only [List.map_map, List.mem_map, Function.comp] at hd
    obtain ⟨e, he, rfl⟩ := hd
    exact ih e he
  | objEmpty _ => exact ⟨_, .objEmpty ws_nil⟩
  | @obj ms _ hw _ ih =>
    rw [Doc.sort, sortVals_eq]
    refine denotable_obj fun d hd => ?_
    have hd := (C38_order _).1.mem_iff.1 hd
    simp only [List.map_map, List.mem_map, Function.comp] at hd
    obtain ⟨e, he, rfl⟩ := hd
    exact ⟨(hw e he).2.1, ih e he⟩

theorem sort_sort : ∀ d : Doc, d.sort.sort = d.sort := by
  intro d
  have key : ∀ n, ∀ d : Doc, d.height ≤ n → d.sort.sort = d.sort := by
    intro n
    induction n with
    | zero =>
      intro d hd
      cases d with
      | leaf t => simp [Doc.sort]
      | arr es => simp only [Doc.height] at hd; omega
      | obj ms => simp only [Doc.height] at hd; omega
    | succ n ih =>
      intro d hd
      cases d with
      | leaf t => simp [Doc.sort]
      | arr es =>
        simp only [Doc.height] at hd
        simp only [Doc.sort, sortElems_eq, List.map_map]
        congr 1
        exact List.map_congr_left fun x hx => ih x (by have := elemHeight_le hx; omega)
      | obj ms =>
        simp only [Doc.height] at hd
        simp only [Doc.sort]
        rw [sortVals_sortMembers]
        have : sortVals (sortVals ms) = sortVals ms := by
          simp only [sortVals_eq, List.map_map]
          refine List.map_congr_left fun x hx => ?_
          simp only [Function.comp]
          rw [ih x.2 (by have := memHeight_le hx; omega)]
        rw [this, sortMembers_sorted (C38_order _).2.1]
  exact key _ d (Nat.le_refl _)

theorem mem_limElems {n : Nat} : ∀ {es : List Doc} {x : Doc}, x ∈ limElems n es → ∃ d ∈ es, x = d ∨ x = d.sort ∨ x = d.sortLim n
  | [], _, h => by simp [limElems] at h
  | d :: es, x, h => by
    rw [limElems] at h
    split at h
    · rcases List.mem_cons.1 h with rfl | h
      · exact ⟨d, by simp, .inr (.inl rfl)⟩
      · obtain ⟨d', h1, h2⟩ := mem_limElems h
        exact ⟨d', by simp [h1], h2⟩
    · rcases List.mem_cons.1 h with rfl | h
      · exact ⟨d, by simp, .inr (.inr rfl)⟩
      · exact ⟨x, by simp [h], .inl rfl⟩

theorem mem_limVals {n : Nat} : ∀ {ms : List (Bytes × Doc)} {x : Bytes × Doc}, x ∈ limVals n ms →
    ∃ d, (x.1, d) ∈ ms ∧ (x.2 = d ∨ x.2 = d.sort ∨ x.2 = d.sortLim n)
  | [], _, h => by simp [limVals] at h
  | (k, d) :: ms, x, h => by
    rw [limVals] at h
    split at h
    · rcases List.mem_cons.1 h with rfl | h
      · exact ⟨d, by simp, .inr (.inl rfl)⟩
      · obtain ⟨d', h1, h2⟩ := mem_limVals h
        exact ⟨d', by simp [h1], h2⟩
    · rcases List.mem_cons.1 h with rfl | h
      · exact ⟨d, by simp, .inr (.inr rfl)⟩
      · exact ⟨x.2, by simp [h], .inl rfl⟩

theorem denotable_sortLim {v : Bytes} {d : Doc} (h : Denotes v d) : ∀ n, ∃ v', Denotes v' (d.sortLim n) := by
  induction h with
  | leaf h h1 h2 => intro n; rw [Doc.sortLim]; exact ⟨_, .leaf h h1 h2⟩
  | arrEmpty hw =>
    intro n
    cases n
    · rw [Doc.sortLim]; exact ⟨_, .arrEmpty ws_nil⟩
    · rw [Doc.sortLim, limElems]; exact ⟨_, .arrEmpty ws_nil⟩
  | @arr es hne hw hd ih =>
    intro n
    cases n with
    | zero => rw [Doc.sortLim]; exact ⟨_, .arr hne hw hd⟩
    | succ n =>
      rw [Doc.sortLim]
      refine denotable_arr fun x hx => ?_
      obtain ⟨d, hd', hx⟩ := mem_limElems hx
      obtain ⟨e, he, rfl⟩ := List.mem_map.1 hd'
      rcases hx with rfl | rfl | rfl
      · exact ⟨_, hd e he⟩
      · exact denotable_sort (hd e he)
      · exact ih e he n
  | objEmpty hw =>
    intro n
    cases n
    · rw [Doc.sortLim]; exact ⟨_, .objEmpty ws_nil⟩
    · rw [Doc.sortLim, if_pos (by simp [memHeight])]; exact ⟨_, .objEmpty ws_nil⟩
  | @obj ms hne hw hd ih =>
    intro n
    cases n with
    | zero => rw [Doc.sortLim]; exact ⟨_, .obj hne hw hd⟩
    | succ n =>
      rw [Doc.sortLim]
      split
      · have := denotable_sort (.obj hne hw hd)
        rwa [Doc.sort] at this
      · refine denotable_obj fun x hx => ?_
        obtain ⟨d, hd', hx⟩ := mem_limVals hx
        obtain ⟨e, he, h1⟩ := List.mem_map.1 hd'
        simp only [Prod.mk.injEq] at h1
        refine ⟨by rw [← h1.1]; exact (hw e he).2.1, ?_⟩
        rcases hx with hx | hx | hx <;> rw [hx, ← h1.2]
        · exact ⟨_, hd e he⟩
        · exact denotable_sort (hd e he)
        · exact ih e he n

mutual
theorem sort_sortLim : ∀ (n : Nat) (d : Doc), (d.sortLim n).sort = d.sort
  | _, .leaf t => by simp [Doc.sortLim]
  | 0, .arr es => by simp [Doc.sortLim]
  | 0, .obj es => by simp [Doc.sortLim]
  | n + 1, .arr es => by rw [Doc.sortLim, Doc.sort, Doc.sort, sortElems_limElems]
  | n + 1, .obj ms => by
    rw [Doc.sortLim]
    split
    · have := sort_sort (.obj ms)
      rwa [Doc.sort] at this
    · rw [Doc.sort, Doc.sort, sortVals_limVals]
theorem sortElems_limElems : ∀ (n : Nat) (es : List Doc), sortElems (limElems n es) = sortElems es
  | _, [] => by simp [limElems]
  | n, d :: es => by
    rw [limElems]
    split
    · rw [sortElems, sortElems, sort_sort, sortElems_limElems]
    · rw [sortElems, sortElems, sort_sortLim]
theorem sortVals_limVals : ∀ (n : Nat) (ms : List (Bytes × Doc)), sortVals (limVals n ms) = sortVals ms
  | _, [] => by simp [limVals]
  | n, (k, d) :: ms => by
    rw [limVals]
    split
    · rw [sortVals, sortVals, sort_sort, sortVals_limVals]
    · rw [sortVals, sortVals, sort_sortLim]
end

/-- What `pretty` with `sort_keys` does to a document of any depth, with any width and
whitespace prefix and indent: objects finished before the first value nested 500 deep are
sorted, the objects around it and everything after it are not. -/
theorem C38_exact {t v : Bytes} {d : Doc} (hp : Padded v t) (hd : Denotes v d) {o : PrettyOptions} (hpfx : Ws o.pfx)
    (hind : Ws o.indent) (hsort : o.sortKeys = true) :
    ∃ out v', prettyOptions t o = .ok out ∧ Padded v' out ∧ Denotes v' (d.sortLim 499) := by
  obtain ⟨out, ho⟩ := prettyOptions_ok t o
  have h1 := prettyOptions_tokens_all hd hp hpfx hind ho
  rw [hsort] at h1
  obtain ⟨v0, h0⟩ := denotable_sortLim hd 499
  obtain ⟨v', hp', hd'⟩ := denotes_of_tokens h0 h1
  exact ⟨out, v', ho, hp', hd'⟩

/-- At every depth the result has the same members as the document, up to their order:
sorting both gives the same document. -/
theorem C38_same_members {t v : Bytes} {d : Doc} (hp : Padded v t) (hd : Denotes v d) {o : PrettyOptions} (hpfx : Ws o.pfx)
    (hind : Ws o.indent) (hsort : o.sortKeys = true) :
    ∃ out v' d', prettyOptions t o = .ok out ∧ Padded v' out ∧ Denotes v' d' ∧ d'.sort = d.sort := by
  obtain ⟨out, v', h1, h2, h3⟩ := C38_exact hp hd hpfx hind hsort
  exact ⟨out, v', _, h1, h2, h3, sort_sortLim _ _⟩

/-- C38 for documents nested less deep than 500: with `sort_keys`, and with any width,
whitespace prefix and whitespace indent, the result represents the document with the
members of all objects sorted. The full claim, without the limit on nesting, is false:
see `C38_false`; `C38_exact` has what holds for all. -/
theorem C38_sorted_partial {t v : Bytes} {d : Doc} (hp : Padded v t) (hd : Denotes v d) {o : PrettyOptions} (hpfx : Ws o.pfx)
    (hind : Ws o.indent) (hsort : o.sortKeys = true) (hlim : d.height < 500) :
    ∃ out v', prettyOptions t o = .ok out ∧ Padded v' out ∧ Denotes v' d.sort := by
  rw [← sortLim_fit (n := 499) (d := d) (by omega)]
  exact C38_exact hp hd hpfx hind hsort

/-- `C38_exact` for `@pretty` with an argument that asks for sorted keys. -/
theorem C38_modifier_exact {t v : Bytes} {d : Doc} (hp : Padded v t) (hd : Denotes v d) {a m : Bytes}
    (hm : ModCall b!"pretty" a m)
    (hi : ∃ r s, get a b!"indent" = .ok r ∧ r.str = .ok s ∧ Ws s) (hx : ∃ r s, get a b!"prefix" = .ok r ∧ r.str = .ok s ∧ Ws s)
    (hs : ∃ r, get a b!"sortKeys" = .ok r ∧ r.exists = true ∧ r.bool = .ok true) :
    ∃ r v', get t m = .ok r ∧ r.kind = kindOf v' ∧ Padded v' r.json ∧ Denotes v' (d.sortLim 499) := by
  obtain ⟨ri, si, hi1, hi2, hi3⟩ := hi
  obtain ⟨rp, sp, hx1, hx2, hx3⟩ := hx
  obtain ⟨rs, hs1, hs2, hs3⟩ := hs
  obtain ⟨out, ho⟩ := modPretty_ok t a
  obtain ⟨o, h1, h2, h3, h4⟩ := modPretty_options ho hi1 hi2 hx1 hx2 hs1 hs3 hi3 hx3
  obtain ⟨out', v', h5, h6, h7⟩ := C38_exact hp hd h2 h3 (h4 (.inl hs2))
  rw [h1] at h5
  cases h5
  obtain ⟨_, r, _, h8, _, h9, h10⟩ := get_mod_value hm (show modApply get b!"pretty" t a = .ok out from ho) (value_of_denotes h7) h6
  exact ⟨r, v', h8, h9, h10, h7⟩

/-- C38 for `@pretty` with an argument that asks for sorted keys; the same limit on
nesting. -/
theorem C38_modifier_partial {t v : Bytes} {d : Doc} (hp : Padded v t) (hd : Denotes v d) (hlim : d.height < 500) {a m : Bytes}
    (hm : ModCall b!"pretty" a m)
    (hi : ∃ r s, get a b!"indent" = .ok r ∧ r.str = .ok s ∧ Ws s) (hx : ∃ r s, get a b!"prefix" = .ok r ∧ r.str = .ok s ∧ Ws s)
    (hs : ∃ r, get a b!"sortKeys" = .ok r ∧ r.exists = true ∧ r.bool = .ok true) :
    ∃ r v', get t m = .ok r ∧ r.kind = kindOf v' ∧ Padded v' r.json ∧ Denotes v' d.sort := by
  rw [← sortLim_fit (n := 499) (d := d) (by omega)]
  exact C38_modifier_exact hp hd hm hi hx hs

theorem sortArg_value : IsValue b!"{\"sortKeys\":true}" := by
  have hk : StrLit b!"\"sortKeys\"" :=
    ⟨b!"sortKeys", .plain (by decide) (by decide) (by decide) (.plain (by decide) (by decide) (by decide)
      (.plain (by decide) (by decide) (by decide) (.plain (by decide) (by decide) (by decide)
      (.plain (by decide) (by decide) (by decide) (.plain (by decide) (by decide) (by decide)
      (.plain (by decide) (by decide) (by decide) (.plain (by decide) (by decide) (by decide) .nil))))))), rfl⟩
  exact .obj (ms := [⟨[], b!"\"sortKeys\"", [], [], b!"true", []⟩]) (by simp)
    (by simp only [List.forall_mem_cons]; exact ⟨⟨ws_nil, hk, ws_nil, ws_nil, ws_nil⟩, by simp⟩)
    (by simp only [List.forall_mem_cons]; exact ⟨.true, by simp⟩)

/-- The call `@pretty:{"sortKeys":true}`. -/
theorem C38_modifier_call_partial {t v : Bytes} {d : Doc} (hp : Padded v t) (hd : Denotes v d) (hlim : d.height < 500) :
    ∃ r v', get t b!"@pretty:{\"sortKeys\":true}" = .ok r ∧ r.kind = kindOf v' ∧ Padded v' r.json ∧ Denotes v' d.sort :=
  C38_modifier_partial hp hd hlim (a := b!"{\"sortKeys\":true}") (.json (by decide) sortArg_value (by decide))
    ⟨Value.default, [], by decide +kernel, rfl, ws_nil⟩ ⟨Value.default, [], by decide +kernel, rfl, ws_nil⟩
    ⟨_, rfl, by decide +kernel, by decide +kernel⟩

/-- Sorting by key bytes, equal keys in source order, at all levels. -/
example : prettyOptions b!"{\"b\":{\"d\":1,\"c\":2},\"a\":3,\"b\":4}" ⟨80, [], b!"  ", true⟩ =
    .ok b!"{\n  \"a\": 3,\n  \"b\": {\n    \"c\": 2,\n    \"d\": 1\n  },\n  \"b\": 4\n}\n" := by decide +kernel

/-- C38 is false for deeply nested documents: the printer gives up at depth 500, prints
the rest of the text as `ugly` does, and returns from all levels without sorting. The
members of `{"b":1,"a":[[…]]}` with 499 brackets stay in source order. -/
theorem C38_false : ¬ ∀ (t v : Bytes) (d : Doc) (o : PrettyOptions), Padded v t → Denotes v d → Ws o.pfx → Ws o.indent →
    o.sortKeys = true → ∃ out v', prettyOptions t o = .ok out ∧ Padded v' out ∧ Denotes v' d.sort := by
  intro H
  obtain ⟨m, hm⟩ : ∃ m, m + 2 = MAX_DEPTH := ⟨498, rfl⟩
  have hd : Denotes (deepText (m + 1)) (.obj [(b!"\"b\"", .leaf b!"1"), (b!"\"a\"", deepDoc m)]) := by
    have := Denotes.obj (ms := [(⟨[], b!"\"b\"", [], [], b!"1", []⟩, .leaf b!"1"), (⟨[], b!"\"a\"", [], [], _, []⟩, deepDoc m)]) (by simp)
      (by simp only [List.forall_mem_cons]; exact ⟨⟨ws_nil, strLit_b, ws_nil, ws_nil, ws_nil⟩, ⟨ws_nil, strLit_a, ws_nil, ws_nil, ws_nil⟩, by simp⟩)
      (by simp only [List.forall_mem_cons]; exact ⟨denotes_one, deepDoc_denotes m, by simp⟩)
    simpa [membersText, Member.text, deepText] using this
  have hp : Padded (deepText (m + 1)) (deepText (m + 1)) := ⟨[], [], ws_nil, ws_nil, by simp⟩
  obtain ⟨out, v', h1, h2, h3⟩ := H _ _ _ ⟨80, [], [], true⟩ hp hd ws_nil ws_nil rfl
  obtain ⟨out', v'', h4, h5, h6⟩ := C38_exact (o := ⟨80, [], [], true⟩) hp hd ws_nil ws_nil rfl
  rw [h1] at h4
  cases h4
  have hh : m < (deepDoc m).height := by rw [deepDoc_height]; omega
  have htok := (tokens_padded h2 h3).symm.trans (tokens_padded h5 h6)
  rw [show (499 : Nat) = m + 1 by have : MAX_DEPTH = 500 := rfl; omega] at htok
  have hle : ¬ (rawKey b!"\"b\"" ≤ rawKey b!"\"a\"") := by decide
  rw [Doc.sortLim, if_neg (by simp only [memHeight, Doc.height]; omega)] at htok
  simp [Doc.sort, sortVals, sortMembers, insertMember, hle, Doc.toks, memToks, limVals, Doc.height, Nat.not_le.2 hh] at htok

/-- Objects finished before the limit are sorted, those around it are not, those after
it are not: with at most two levels. -/
example : (Doc.arr [.obj [(b!"\"b\"", .leaf b!"1"), (b!"\"a\"", .leaf b!"2")],
      .arr [.arr [.leaf b!"3"]], .obj [(b!"\"d\"", .leaf b!"4"), (b!"\"c\"", .leaf b!"5")]]).sortLim 2 =
    .arr [.obj [(b!"\"a\"", .leaf b!"2"), (b!"\"b\"", .leaf b!"1")],
      .arr [.arr [.leaf b!"3"]], .obj [(b!"\"d\"", .leaf b!"4"), (b!"\"c\"", .leaf b!"5")]] := by
  have hle : ¬ (rawKey b!"\"b\"" ≤ rawKey b!"\"a\"") := by decide
  simp [Doc.sortLim, limElems, Doc.height, elemHeight, memHeight, Doc.sort, sortVals, sortMembers, insertMember, hle]

end Gjson
