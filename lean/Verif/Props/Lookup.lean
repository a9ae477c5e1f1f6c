import Verif.Lemmas.Dot
import Verif.Lemmas.Handed
import Verif.Lemmas.Piece
import Verif.Props.Strings
import Verif.Props.Values
/-
C06-C12, C16, C17, C19 and the part of C40 about `get`.

`KeyIs kl s` says that the library's own `parse(kl).str()` is `s`, for a key
literal `kl`. `KeyDenotes P kl s` is RFC 8259; the two agree outside the even
supplementary planes (C23), so the RFC forms of the theorems are `_partial`.
`SameAsText v t` says that `v.json() = t`, `v.kind()` is the kind of `t`, and `v`
cannot be told apart from `parse(t)`.
-/
namespace Gjson
open Spec

/-! ### C06 -/

/-- C06, keys as the library decodes them: the first member with the key is found,
with exactly its source text and kind. -/
theorem C06_member {doc t k kl v : Bytes} {before after : List (Bytes × Bytes)}
    (ho : IsObject t (before ++ (kl, v) :: after)) (hd : Padded t doc) (hk : PlainKey k)
    (hkl : KeyIs kl k) (hb : ∀ m ∈ before, ¬ KeyIs m.1 k) :
    ∃ w, get doc k = .ok w ∧ w.exists = true ∧ w.json = v ∧ w.kind = kindOf v ∧ SameAsText w v := by
  have hmem := fun m hm => IsObject.mem_value ho m hm
  obtain ⟨w, h1, h2⟩ := (oneComp (PlainKey.compBody hk.1) (PlainKey.first hk)).hit ho hd hkl
    (by simp [pKeyMatch]) (fun m hm => by
      obtain ⟨s, h1, h2⟩ := keyIs_total (hmem m (by simp [hm])).1
      exact ⟨s, h1, by simp [pKeyMatch]; rintro rfl; exact hb m hm h1⟩)
  refine ⟨w, h1, ?_, h2.1, h2.2.1, h2⟩
  have := isValue_ne_nil (hmem (kl, v) (by simp)).2
  simp only [Value.exists, h2.1]; simpa [List.length_pos_iff] using this

/-- C06, keys as the library decodes them: without such a member the result does
not exist. -/
theorem C06_missing {doc t k : Bytes} {kvs : List (Bytes × Bytes)} (ho : IsObject t kvs) (hd : Padded t doc)
    (hk : PlainKey k) (hb : ∀ m ∈ kvs, ¬ KeyIs m.1 k) : ∃ w, get doc k = .ok w ∧ w.exists = false := by
  refine ⟨_, (oneComp (PlainKey.compBody hk.1) (PlainKey.first hk)).miss ho hd (fun m hm => ?_), rfl⟩
  obtain ⟨s, h1, h2⟩ := keyIs_total (IsObject.mem_value ho m hm).1
  exact ⟨s, h1, by simp [pKeyMatch]; rintro rfl; exact hb m hm h1⟩

/-- The key literals as RFC 8259 reads them and as the library does. -/
theorem keyIs_of_denotes {kl s k : Bytes} (h : KeyDenotes OddPlane kl s) : KeyIs kl k ↔ k = s := by
  obtain ⟨b, rfl, hd⟩ := h
  rw [keyIs_lit hd.strBody, decodes_odd hd]

/-- C06 with keys as RFC 8259 decodes them. Missing: keys written with surrogate
pairs of an even supplementary plane, for which it is false (`C06_false`). -/
theorem C06_member_partial {doc t k kl v : Bytes} {before after : List (Bytes × Bytes)}
    (ho : IsObject t (before ++ (kl, v) :: after)) (hd : Padded t doc) (hk : PlainKey k)
    (hkl : KeyDenotes OddPlane kl k) (hb : ∀ m ∈ before, ∃ s, KeyDenotes OddPlane m.1 s ∧ s ≠ k) :
    ∃ w, get doc k = .ok w ∧ w.exists = true ∧ w.json = v ∧ w.kind = kindOf v ∧ SameAsText w v :=
  C06_member ho hd hk ((keyIs_of_denotes hkl).2 rfl) fun m hm h => by
    obtain ⟨s, h1, h2⟩ := hb m hm
    exact h2 ((keyIs_of_denotes h1).1 h).symm

/-- C06 with keys as RFC 8259 decodes them, no such member. -/
theorem C06_missing_partial {doc t k : Bytes} {kvs : List (Bytes × Bytes)} (ho : IsObject t kvs) (hd : Padded t doc)
    (hk : PlainKey k) (hb : ∀ m ∈ kvs, ∃ s, KeyDenotes OddPlane m.1 s ∧ s ≠ k) :
    ∃ w, get doc k = .ok w ∧ w.exists = false :=
  C06_missing ho hd hk fun m hm h => by
    obtain ⟨s, h1, h2⟩ := hb m hm
    exact h2 ((keyIs_of_denotes h1).1 h).symm

/-- C06 is false for keys beyond: `{"𠮷":1}` has the key U+20BB7, which
is not found. -/
theorem C06_false : IsObject b!"{\"\\ud842\\udfb7\":1}" [(b!"\"\\ud842\\udfb7\"", b!"1")] ∧
    KeyDenotes (fun _ => True) b!"\"\\ud842\\udfb7\"" b!"𠮷" ∧ PlainKey b!"𠮷" ∧
    ∃ w, get b!"{\"\\ud842\\udfb7\":1}" b!"𠮷" = .ok w ∧ w.exists = false := by
  refine ⟨?_, ⟨b!"\\ud842\\udfb7", rfl, C23_false_even_plane.1⟩, by decide +kernel, Value.default,
    by decide +kernel, rfl⟩
  refine .inr ⟨[⟨[], b!"\"\\ud842\\udfb7\"", [], [], b!"1", []⟩], by simp, ?_, ?_, rfl, rfl⟩
  · intro m hm; simp at hm; subst hm
    exact ⟨Ws.nil, ⟨b!"\\ud842\\udfb7", .uni (by decide) (by decide) (by decide) (by decide)
      (.uni (by decide) (by decide) (by decide) (by decide) .nil), rfl⟩, Ws.nil, Ws.nil, Ws.nil⟩
  · intro m hm; simp at hm; subst hm
    exact .num ⟨[], b!"1", [], [], rfl, .inl rfl, .inr ⟨_, [], rfl, by decide, by decide, by simp⟩, .inl rfl, .inl rfl⟩

/-- An object with two members, the second with an escaped key. -/
def sampleObj : Bytes := b!"{ \"a\" : \"}\" ,\"b\\u0063\":[1] }"

theorem sampleObj_isObject : IsObject sampleObj ([(b!"\"a\"", b!"\"}\"")] ++ (b!"\"b\\u0063\"", b!"[1]") :: []) := by
  refine .inr ⟨[⟨b!" ", b!"\"a\"", b!" ", b!" ", b!"\"}\"", b!" "⟩, ⟨[], b!"\"b\\u0063\"", [], [], b!"[1]", b!" "⟩],
    by simp, ?_, ?_, rfl, rfl⟩
  · intro m hm; simp at hm
    rcases hm with rfl | rfl
    · exact ⟨by decide, ⟨b!"a", .plain (by decide) (by decide) (by decide) .nil, rfl⟩, by decide, by decide, by decide⟩
    · exact ⟨by decide, ⟨b!"b\\u0063", .plain (by decide) (by decide) (by decide)
        (.uni (by decide) (by decide) (by decide) (by decide) .nil), rfl⟩, by decide, by decide, by decide⟩
  · intro m hm; simp at hm
    rcases hm with rfl | rfl
    · exact .str ⟨b!"}", .plain (by decide) (by decide) (by decide) .nil, rfl⟩
    · refine .arr (es := [⟨[], b!"1", []⟩]) (by simp) (by intro e he; simp at he; subst he; exact ⟨Ws.nil, Ws.nil⟩) ?_
      intro e he; simp at he; subst he
      exact .num ⟨[], b!"1", [], [], rfl, .inl rfl, .inr ⟨_, [], rfl, by decide, by decide, by simp⟩, .inl rfl, .inl rfl⟩

/-- The hypotheses of C06 can be met: the second member is found by its decoded key. -/
example : ∃ w, get sampleObj b!"bc" = .ok w ∧ w.json = b!"[1]" ∧ w.kind = .array := by
  obtain ⟨w, h1, _, h2, h3, _⟩ := C06_member_partial (k := b!"bc") sampleObj_isObject (padded_self _) (by decide)
    ⟨b!"b\\u0063", rfl, .plain (by decide) (by decide) (by decide) (.bmp (t := []) (by decide) (by decide) (by decide) (by decide)
      (by decide) .nil)⟩ (fun m hm => ⟨b!"a", by
        simp at hm; subst hm; exact ⟨b!"a", rfl, .plain (by decide) (by decide) (by decide) .nil⟩, by decide⟩)
  exact ⟨w, h1, h2, h3⟩

example : ∃ w, get sampleObj b!"c" = .ok w ∧ w.exists = false := ⟨Value.default, by decide +kernel, rfl⟩

/-! ### C07 -/

theorem get_index {doc t : Bytes} {vs : List Bytes} (ha : IsArray t vs) (hd : Padded t doc) {k : Bytes} (hk : PlainKey k)
    {n : Nat} (hi : IndexText k n) (hn : n < 2 ^ 63) :
    ∃ w, get doc k = .ok w ∧ (∀ v, vs[n]? = some v → SameAsText w v) ∧ (vs[n]? = none → w = Value.default) := by
  have ho := oneComp (PlainKey.compBody hk.1) (PlainKey.first hk)
  obtain ⟨q, L, _, h⟩ := ho.get_cont (IsArray.isCont ha) hd
  rw [h, gCont_arr _ _ _ ha]
  have := gArrVals_index get hk hi hn 0 [] (eachToks (L - (t ++ q).length) false (t ++ q))
  unfold plainPath at this
  rw [this]
  refine ⟨_, ho.finish _, ?_, ?_⟩
  · intro v hv
    obtain ⟨e, he, hs⟩ := aligned_get (array_toks ha q (L - (t ++ q).length)) hv
    rw [List.getD_eq_getElem?_getD, he]; exact hs
  · intro hv
    rw [List.getD_eq_getElem?_getD, List.getElem?_eq_none]; · rfl
    rw [aligned_length (array_toks ha q (L - (t ++ q).length))]
    exact List.getElem?_eq_none_iff.1 hv

/-- C07: the `n`-th element is found, with exactly its source text and kind. -/
theorem C07_element {doc t v : Bytes} {vs : List Bytes} {n : Nat} (ha : IsArray t vs) (hd : Padded t doc)
    (hn : n < 2 ^ 63) (hv : vs[n]? = some v) :
    ∃ w, get doc (numeral n) = .ok w ∧ w.exists = true ∧ w.json = v ∧ w.kind = kindOf v ∧ SameAsText w v := by
  obtain ⟨w, h1, h2, _⟩ := get_index ha hd (plainKey_numeral n).1 (indexText_numeral n) hn
  have hs := h2 v hv
  refine ⟨w, h1, ?_, hs.1, hs.2.1, hs⟩
  have := isValue_ne_nil (IsArray.mem_value ha v (List.mem_of_getElem? hv)).1
  simp only [Value.exists, hs.1]; simpa [List.length_pos_iff] using this

/-- An index may also be written with leading zeros or a plus sign: the same element. -/
theorem C07_index_forms {doc t k v : Bytes} {vs : List Bytes} {n : Nat} (ha : IsArray t vs) (hd : Padded t doc)
    (hk : PlainKey k) (hi : IndexText k n) (hn : n < 2 ^ 63) (hv : vs[n]? = some v) :
    ∃ w, get doc k = .ok w ∧ SameAsText w v := by
  obtain ⟨w, h1, h2, _⟩ := get_index ha hd hk hi hn
  exact ⟨w, h1, h2 v hv⟩

/-- A key is an index in one way at most. -/
theorem indexText_unique {k : Bytes} {m n : Nat} (hm : IndexText k m) (hn : IndexText k n) : m = n := by
  obtain ⟨ds, a1, a2, rfl, a3⟩ := hm
  obtain ⟨es, b1, b2, rfl, b3⟩ := hn
  have hs : ∀ {ds : Bytes} {c : UInt8}, (∀ c ∈ ds, IsDigit c) → c = c! '+' ∨ c = c! '-' → ∀ {es : Bytes}, ds ≠ c :: es := by
    rintro _ c h hc es rfl
    have := h c (by simp)
    unfold IsDigit at this
    rcases hc with rfl | rfl <;> revert this <;> decide
  rcases a3 with rfl | rfl | ⟨rfl, _⟩ <;> rcases b3 with h | h | ⟨h, _⟩
  · rw [h]
  · exact absurd h (hs a2 (.inl rfl))
  · exact absurd h (hs a2 (.inr rfl))
  · exact absurd h.symm (hs b2 (.inl rfl))
  · rw [(List.cons.inj h).2]
  · exact absurd (List.cons.inj h).1 (by decide)
  · exact absurd h.symm (hs b2 (.inr rfl))
  · exact absurd (List.cons.inj h).1 (by decide)
  · rw [(List.cons.inj h).2]

/-- C07: a key that is no index of an element finds nothing in an array: a key that is no
numeral, or a number that is not smaller than the number of elements, however large. -/
theorem C07_no_index {doc t k : Bytes} {vs : List Bytes} (ha : IsArray t vs) (hd : Padded t doc)
    (hk : PlainKey k) (hi : ∀ n, IndexText k n → vs.length ≤ n) : ∃ w, get doc k = .ok w ∧ w.exists = false := by
  by_cases hx : ∃ n, IndexText k n ∧ n < 2 ^ 63
  · obtain ⟨n, h1, h2⟩ := hx
    obtain ⟨w, h3, _, h4⟩ := get_index ha hd hk h1 h2
    exact ⟨w, h3, by rw [h4 (List.getElem?_eq_none (hi n h1))]; rfl⟩
  · have ho := oneComp (PlainKey.compBody hk.1) (PlainKey.first hk)
    obtain ⟨q, L, _, h⟩ := ho.get_cont (IsArray.isCont ha) hd
    rw [h, gCont_arr _ _ _ ha]
    have := gArrVals_noindex get hk hx 0 [] (eachToks (L - (t ++ q).length) false (t ++ q))
    unfold plainPath at this
    rw [this]
    exact ⟨_, ho.finish _, rfl⟩

/-- C07: beyond the end the result does not exist, for every number. -/
theorem C07_beyond {doc t : Bytes} {vs : List Bytes} {n : Nat} (ha : IsArray t vs) (hd : Padded t doc)
    (hv : vs.length ≤ n) : ∃ w, get doc (numeral n) = .ok w ∧ w.exists = false :=
  C07_no_index ha hd (plainKey_numeral n).1 fun _ h => indexText_unique h (indexText_numeral n) ▸ hv

/-- An array with two elements. -/
def sampleArr : Bytes := b!"[ \"],\" ,-1e2]"

theorem sampleArr_isArray : IsArray sampleArr [b!"\"],\"", b!"-1e2"] := by
  refine .inr ⟨[⟨b!" ", b!"\"],\"", b!" "⟩, ⟨[], b!"-1e2", []⟩], by simp, ?_, ?_, rfl, rfl⟩
  · intro m hm; simp at hm
    rcases hm with rfl | rfl <;> exact ⟨by decide, by decide⟩
  · intro m hm; simp at hm
    rcases hm with rfl | rfl
    · exact .str ⟨b!"],", .plain (by decide) (by decide) (by decide) (.plain (by decide) (by decide) (by decide) .nil), rfl⟩
    · exact .num ⟨b!"-", b!"1", [], b!"e2", rfl, .inr rfl, .inr ⟨_, [], rfl, by decide, by decide, by simp⟩, .inl rfl,
        .inr ⟨_, [], b!"2", rfl, .inl rfl, .inl rfl, by decide, by decide⟩⟩

example : ∃ w, get sampleArr b!"1" = .ok w ∧ w.json = b!"-1e2" ∧ w.kind = .number := by
  obtain ⟨w, h1, _, h2, h3, _⟩ := C07_element (n := 1) sampleArr_isArray (padded_self _) (by decide) rfl
  exact ⟨w, h1, h2, h3⟩

example : ∃ w, get sampleArr b!"2" = .ok w ∧ w.exists = false :=
  C07_beyond (n := 2) sampleArr_isArray (padded_self _) (by decide)

example : ∃ w, get sampleArr b!"18446744073709551616" = .ok w ∧ w.exists = false := by
  have := C07_beyond (n := 2 ^ 64) sampleArr_isArray (padded_self _) (by decide)
  rwa [show numeral (2 ^ 64) = b!"18446744073709551616" by decide +kernel] at this

/-! ### C08 -/

theorem pNext_hash : pNext b!"#" = ⟨b!"#", false, false, 0, 0, []⟩ := by decide +kernel

/-- C08: `#` gives the number of elements. -/
theorem C08_count {doc t : Bytes} {vs : List Bytes} (ha : IsArray t vs) (hd : Padded t doc) :
    ∃ w, get doc b!"#" = .ok w ∧ w.exists = true ∧ w.kind = .number ∧ w.json = numeral vs.length ∧
      (vs.length < 2 ^ 64 → w.u64 = .ok vs.length) := by
  have ho : OneComp b!"#" ⟨b!"#", false, false, 0, 0, []⟩ := ⟨pNext_hash, rfl, rfl, rfl, rfl⟩
  obtain ⟨q, L, _, h⟩ := ho.get_cont (IsArray.isCont ha) hd
  rw [h, gCont_arr _ _ _ ha]
  have hl := aligned_length (array_toks ha q (L - (t ++ q).length))
  have : gArrVals get ⟨b!"#", false, false, 0, 0, []⟩ (eachToks (L - (t ++ q).length) false (t ++ q)) =
      .ok (mkOwned (numeral vs.length) none INFO_NUMBER, ⟨b!"#", false, false, 0, 0, []⟩) := by
    rw [← hl, ← natDec_eq]; rfl
  rw [this]
  have hne : numeral vs.length ≠ [] := (numeral_spec _).1
  refine ⟨_, ho.finish _, ?_, ?_, ?_, ?_⟩
  · rw [mkOwned_exists]; simpa using hne
  · rw [mkOwned_kind]; decide
  · exact mkOwned_json _ _ _
  · intro h; exact C24_u64_number _ _ h (by rw [mkOwned_kind]; decide) (mkOwned_json _ _ _)

example : ∃ w, get sampleArr b!"#" = .ok w ∧ w.json = b!"2" := by
  obtain ⟨w, h1, _, _, h2, _⟩ := C08_count sampleArr_isArray (padded_self _)
  exact ⟨w, h1, h2⟩

/-! ### C09 -/

/-- C09, keys as the library decodes them: a path that resolves step by step finds
exactly what it names. -/
theorem C09_resolves {doc v r : Bytes} {ks : List Bytes} (h : Resolves KeyIs v ks r) (hd : Padded v doc)
    (hp : ∀ k ∈ ks, PlainKey k ∧ k ≠ []) (hne : ks ≠ []) :
    ∃ w, get doc (dotPath ks) = .ok w ∧ w.json = r ∧ w.kind = kindOf r ∧ SameAsText w r := by
  obtain ⟨w, h1, h2⟩ := resolves_get h hp hne hd
  exact ⟨w, h1, h2.1, h2.2.1, h2⟩

/-- C09 with keys as RFC 8259 decodes them. Missing: keys written with surrogate
pairs of an even supplementary plane, for which it is false (`C06_false`). -/
theorem C09_resolves_partial {doc v r : Bytes} {ks : List Bytes} (h : Resolves (KeyDenotes OddPlane) v ks r)
    (hd : Padded v doc) (hp : ∀ k ∈ ks, PlainKey k ∧ k ≠ []) (hne : ks ≠ []) :
    ∃ w, get doc (dotPath ks) = .ok w ∧ w.json = r ∧ w.kind = kindOf r ∧ SameAsText w r :=
  C09_resolves (Resolves.mono (fun _ _ => keyDenotes_keyIs) h) hd hp hne

/-- A key and an index, one after the other. -/
example : Resolves (KeyDenotes OddPlane) sampleObj [b!"bc", b!"0"] b!"1" := by
  refine .key sampleObj_isObject (fun m hm => ⟨b!"a", by
        simp at hm; subst hm; exact ⟨b!"a", rfl, .plain (by decide) (by decide) (by decide) .nil⟩, by decide⟩)
    ⟨b!"b\\u0063", rfl, .plain (by decide) (by decide) (by decide) (.bmp (t := []) (by decide) (by decide) (by decide) (by decide)
      (by decide) .nil)⟩ ?_
  refine .index (vs := [b!"1"]) (n := 0) (.inr ⟨[⟨[], b!"1", []⟩], by simp, ?_, ?_, rfl, rfl⟩)
    ⟨b!"0", by decide, by decide, by decide, .inl rfl⟩ (by decide) rfl .here
  · intro e he; simp at he; subst he; exact ⟨Ws.nil, Ws.nil⟩
  · intro e he; simp at he; subst he
    exact .num ⟨[], b!"1", [], [], rfl, .inl rfl, .inr ⟨_, [], rfl, by decide, by decide, by simp⟩, .inl rfl, .inl rfl⟩

/-! ### C10 -/

/-- C10 is false: a failed search below `a` goes on inside the value of `a`, so
`a.x` finds `x` two levels further down. -/
theorem C10_false : valid b!"{\"a\":{\"a\":{\"x\":1}}}" = .ok true ∧
    (∃ w, get b!"{\"a\":{\"a\":{\"x\":1}}}" b!"a.x" = .ok w ∧ w.exists = true ∧ w.json = b!"1") ∧
    (∃ u w, get b!"{\"a\":{\"a\":{\"x\":1}}}" b!"a" = .ok u ∧ u.get b!"x" = .ok w ∧ w.exists = false) := by
  refine ⟨by decide +kernel, ⟨_, rfl, by decide +kernel, by decide +kernel⟩, ?_⟩
  exact ⟨_, _, rfl, rfl, by decide +kernel⟩

/-- C10 for texts without backslashes in which each key of the path occurs at most
once between quotes. Missing: texts with escapes, and repeated keys, for which it
is false (`C10_false`). -/
theorem C10_unresolved_partial {doc v : Bytes} {ks : List Bytes} (hv : IsValue v) (hd : Padded v doc)
    (hp : ∀ k ∈ ks, PlainKey k ∧ k ≠ []) (hne : ks ≠ []) (hn : ¬ ∃ r, Resolves KeyIs v ks r)
    (hb : c! '\\' ∉ doc) (hone : ∀ k ∈ ks, AtMostOnce (c! '"' :: (k ++ [c! '"'])) doc) :
    ∃ w, get doc (dotPath ks) = .ok w ∧ w.exists = false :=
  unresolved_get hp hv hne hn hd hb hone

/-- C10 for paths of one component holds without restriction: `C06_missing`,
`C07_beyond` and `C07_no_index`; scalars have no parts. -/
theorem C10_scalar {doc v : Bytes} {ks : List Bytes} (hv : IsValue v) (hd : Padded v doc)
    (hs : kindOf v ≠ .object ∧ kindOf v ≠ .array) (hp : ∀ k ∈ ks, PlainKey k ∧ k ≠ []) (hne : ks ≠ []) :
    ∃ w, get doc (dotPath ks) = .ok w ∧ w.exists = false := by
  obtain ⟨w1, w2, h1, h2, rfl⟩ := hd
  cases ks with
  | nil => exact absurd rfl hne
  | cons k ks =>
    rw [get_dot (hp k (by simp)).1 (.inl (hp k (by simp)).2), gStart_ws _ _ _ h1,
      gStart_noCont _ _ _ (noCont_scalar hv (by unfold IsCont; rw [not_or]; exact hs) w2)]
    exact finish_default rfl (fun x hx => hp x (List.mem_cons_of_mem _ hx))

/-! ### C11 -/

/-- C11 is false for `a.b` against two lookups: the same witness as `C10_false`. -/
theorem C11_false : valid b!"{\"a\":{\"a\":{\"x\":1}}}" = .ok true ∧
    ¬ SameRes (get b!"{\"a\":{\"a\":{\"x\":1}}}" b!"a.x")
      (get b!"{\"a\":{\"a\":{\"x\":1}}}" b!"a" >>= fun v => v.get b!"x") := by
  refine ⟨C10_false.1, ?_⟩
  obtain ⟨_, ⟨w, h1, h2, _⟩, u, w', h3, h4, h5⟩ := C10_false
  rw [h1, h3, ok_bind, h4]
  intro h
  cases h with
  | ok h => rw [SameValue.exists h, h5] at h2; cases h2

/-- C11: looking up in the parsed document is the same as `get`, for all valid
texts and all second paths. -/
theorem C11_parse_get {doc a : Bytes} (b : Bytes) (h : JsonText doc) (ha : PlainKey a) (hne : a ≠ []) :
    SameRes (parse doc >>= fun v => v.get a >>= fun w => w.get b) (get doc a >>= fun w => w.get b) := by
  obtain ⟨v, h1, h2, h3⟩ := parse_get h
  rw [h1, ok_bind]
  have hs := h3 [a] (fun k hk => by simp at hk; subst hk; exact plain_ord ha hne) (by simp)
  replace hs : SameRes (v.get a) (get doc a) := hs
  cases hx : v.get a with
  | error e => rw [hx] at hs; cases hy : get doc a with
    | error e' => rw [hy] at hs; cases hs; exact .refl _
    | ok y => rw [hy] at hs; cases hs
  | ok x =>
    rw [hx] at hs
    cases hy : get doc a with
    | error e' => rw [hy] at hs; cases hs
    | ok y =>
      rw [hy] at hs
      cases hs with
      | ok hs => exact getIn_congr_same (valueGet_prov hx).oneText (get_prov hy).oneText hs b

/-- C11 for `a.b` when it resolves, or `a` does not, or `a` is a scalar, or the
document is an array. Missing: the value of `a` is a container in which `b` is
not found, for which it is false (`C11_false`). -/
theorem C11_dot_partial {doc v a b : Bytes} (hv : IsValue v) (hd : Padded v doc) (ha : PlainKey a ∧ a ≠ [])
    (hb : PlainKey b ∧ b ≠ [])
    (h : (∃ r, Resolves KeyIs v [a, b] r) ∨ (∀ u, Resolves KeyIs v [a] u → kindOf u ≠ .object ∧ kindOf u ≠ .array) ∨
      kindOf v = .array) :
    SameRes (get doc (a ++ c! '.' :: b)) (get doc a >>= fun w => w.get b) := dot_two hv hd ha hb h

example : ∃ w, get sampleObj b!"bc.0" = .ok w ∧ w.json = b!"1" := ⟨_, rfl, by decide +kernel⟩

/-! ### C12 -/

/-- C12: after dot-separated keys (plain, with wildcards or escapes) or indexes, a
pipe applies the rest of the path to the value found, for all texts and all
second paths. -/
theorem C12_pipe (text b : Bytes) {ks : List Bytes} (hk : ∀ k ∈ ks, Selector k) (hne : ks ≠ []) :
    SameRes (get text (dotPath ks ++ c! '|' :: b)) (get text (dotPath ks) >>= fun v => v.get b) :=
  get_piped b (Nat.le_refl _) (fun k h => Selector.ord (hk k h)) hne text

/-- C12 as claimed: one plain key or index. -/
theorem C12_pipe_plain (text a b : Bytes) (ha : PlainKey a) (hne : a ≠ []) :
    SameRes (get text (a ++ c! '|' :: b)) (get text a >>= fun v => v.get b) :=
  C12_pipe text b (ks := [a]) (fun k hk => by simp at hk; subst hk; exact PlainKey.selector ha hne) (by simp)

/-- C12, what `get` on a value is: for every value a caller can hold, however it was
obtained, and every path, it is `get` on the text of the value. -/
theorem C12_value_get {v : Value} (h : Handed v) (path : Bytes) : SameRes (v.get path) (get v.json path) :=
  getIn_same h.oneText path

/-- C12 in terms of texts only: the pipe searches the text of the value found. -/
theorem C12_pipe_text (text b : Bytes) {ks : List Bytes} (hk : ∀ k ∈ ks, Selector k) (hne : ks ≠ []) :
    SameRes (get text (dotPath ks ++ c! '|' :: b)) (get text (dotPath ks) >>= fun v => get v.json b) := by
  refine (C12_pipe text b hk hne).trans ?_
  cases h : get text (dotPath ks) with
  | error e => exact .error e
  | ok v => exact C12_value_get (.get h) b

example : ∃ v, parse b!"[[1]]" = .ok v ∧ Handed v ∧ ∃ w, v.get b!"0|0" = .ok w ∧ w.json = b!"1" :=
  ⟨_, rfl, .parse (t := b!"[[1]]") rfl, _, rfl, by decide +kernel⟩

example : ∃ v, get b!"{\"a\":[3,2,1]}" b!"a|@reverse|0" = .ok v ∧ v.json = b!"1" := ⟨_, rfl, by decide +kernel⟩
example : PlainKey b!"a" := by decide

/-! ### C16 -/

/-- C16 for the code as it is, for all patterns and names: `pmatch` decides the
wildcard grammar in which `\?` stands for any byte, like `?`. -/
theorem C16_pmatch_code (p s : Bytes) :
    ∃ b, pmatch p s = .ok b ∧ (b = true ↔ MatchesE (fun c d => c = d ∨ c = c! '?') p s) :=
  ⟨pm p s, pmatch_eq p s, pm_iff p s⟩

/-- C16 for patterns without an escaped question mark. Missing: `\?`, for which it
is false (`C16_false`). -/
theorem C16_pmatch_partial (p s : Bytes) (h : escapesQuestion p = false) :
    ∃ b, pmatch p s = .ok b ∧ (b = true ↔ Matches p s) :=
  ⟨pm p s, pmatch_eq p s, (pm_iff p s).trans (codeEsc_iff h)⟩

/-- C16 is false: `\?` matches `a`. -/
theorem C16_false : pmatch b!"\\?" b!"a" = .ok true ∧ ¬ Matches b!"\\?" b!"a" := by
  refine ⟨by decide +kernel, ?_⟩
  intro h
  cases h with
  | esc h _ => exact absurd h (by decide)

/-- C16: a pattern ending in a lone backslash matches nothing. -/
theorem C16_lone_backslash (p s : Bytes) (h : loneBackslash p = true) : pmatch p s = .ok false := by
  rw [pmatch_eq, Except.ok.injEq, Bool.eq_false_iff]
  intro hm
  rw [lone_noMatch ((pm_iff p s).1 hm)] at h
  cases h

example : loneBackslash b!"a\\\\\\" = true := by decide

/-- C16 in lookups: a component selects the first member whose key matches. -/
theorem C16_get_partial {doc t k kl s v : Bytes} {before after : List (Bytes × Bytes)}
    (ho : IsObject t (before ++ (kl, v) :: after)) (hd : Padded t doc) (hk : Selector k) (hq : escapesQuestion k = false)
    (hkl : KeyIs kl s) (hm : Matches k s) (hb : ∀ m ∈ before, ∀ s, KeyIs m.1 s → ¬ Matches k s) :
    ∃ w, get doc k = .ok w ∧ w.json = v ∧ w.kind = kindOf v ∧ SameAsText w v := by
  obtain ⟨e, p, hc⟩ := CompText.body hk.1
  obtain ⟨w, h1, h2⟩ := (oneComp hc (plainFirst_of hk.2.1)).hit ho hd hkl
    ((keyMatch_iff hc hq 0 [] s).2 hm) (fun m hm => by
      obtain ⟨s, h1, h2⟩ := keyIs_total (IsObject.mem_value ho m (by simp [hm])).1
      exact ⟨s, h1, by rw [Bool.eq_false_iff, ne_eq, keyMatch_iff hc hq]; exact hb m hm s h1⟩)
  exact ⟨w, h1, h2.1, h2.2.1, h2⟩

/-- C16 in lookups: no key matches. -/
theorem C16_get_missing_partial {doc t k : Bytes} {kvs : List (Bytes × Bytes)} (ho : IsObject t kvs) (hd : Padded t doc)
    (hk : Selector k) (hq : escapesQuestion k = false) (hb : ∀ m ∈ kvs, ∀ s, KeyIs m.1 s → ¬ Matches k s) :
    ∃ w, get doc k = .ok w ∧ w.exists = false := by
  obtain ⟨e, p, hc⟩ := CompText.body hk.1
  refine ⟨_, (oneComp hc (plainFirst_of hk.2.1)).miss ho hd (fun m hm => ?_), rfl⟩
  obtain ⟨s, h1, h2⟩ := keyIs_total (IsObject.mem_value ho m hm).1
  exact ⟨s, h1, by rw [Bool.eq_false_iff, ne_eq, keyMatch_iff hc hq]; exact hb m hm s h1⟩

example : ∃ w, get sampleObj b!"?c" = .ok w ∧ w.json = b!"[1]" := ⟨_, rfl, by decide +kernel⟩

example : Matches b!"a*c?\\*" b!"abbcd*" := by
  refine .plain (by decide) (by decide) (by decide) (.star b!"bb" (.plain (by decide) (by decide) (by decide) (.any (.esc rfl .nil))))

/-! ### C17 -/

theorem escapedAs_match {k p : Bytes} {e q : Bool} (he : EscapedAs k p) (hc : CompBody p e q) (hq : c! '?' ∉ k)
    (s : Bytes) : pKeyMatch s ⟨p, e, q, 0, 0, []⟩ = true ↔ s = k :=
  (keyMatch_iff hc (EscapedAs.noQuestion he hq) 0 [] s).trans (EscapedAs.matches he s)

/-- C17 for keys without `?`: a path that writes the key with escapes finds the
first member with that key. Missing: keys containing `?`, for which it is false
(`C17_false`). -/
theorem C17_escaped_partial {doc t k p kl v : Bytes} {before after : List (Bytes × Bytes)}
    (ho : IsObject t (before ++ (kl, v) :: after)) (hd : Padded t doc) (he : EscapedAs k p) (hf : ∀ c ∈ p.head?, c ∉ pathStart)
    (hq : c! '?' ∉ k) (hkl : KeyIs kl k) (hb : ∀ m ∈ before, ¬ KeyIs m.1 k) :
    ∃ w, get doc p = .ok w ∧ w.json = v ∧ w.kind = kindOf v ∧ SameAsText w v := by
  obtain ⟨e, hc, _⟩ := EscapedAs.compBody he
  obtain ⟨w, h1, h2⟩ := (oneComp hc (plainFirst_of hf)).hit ho hd hkl
    ((escapedAs_match he hc hq k).2 rfl) (fun m hm => by
      obtain ⟨s, h1, h2⟩ := keyIs_total (IsObject.mem_value ho m (by simp [hm])).1
      refine ⟨s, h1, ?_⟩
      rw [Bool.eq_false_iff, ne_eq, escapedAs_match he hc hq]
      rintro rfl; exact hb m hm h1)
  exact ⟨w, h1, h2.1, h2.2.1, h2⟩

/-- C17 for keys without `?`, no such member. -/
theorem C17_escaped_missing_partial {doc t k p : Bytes} {kvs : List (Bytes × Bytes)} (ho : IsObject t kvs) (hd : Padded t doc)
    (he : EscapedAs k p) (hf : ∀ c ∈ p.head?, c ∉ pathStart) (hq : c! '?' ∉ k) (hb : ∀ m ∈ kvs, ¬ KeyIs m.1 k) :
    ∃ w, get doc p = .ok w ∧ w.exists = false := by
  obtain ⟨e, hc, _⟩ := EscapedAs.compBody he
  refine ⟨_, (oneComp hc (plainFirst_of hf)).miss ho hd (fun m hm => ?_), rfl⟩
  obtain ⟨s, h1, h2⟩ := keyIs_total (IsObject.mem_value ho m hm).1
  refine ⟨s, h1, ?_⟩
  rw [Bool.eq_false_iff, ne_eq, escapedAs_match he hc hq]
  rintro rfl; exact hb m hm h1

/-- C17 for keys without `?` and the path that escapes exactly the special bytes. -/
theorem C17_escapeKey_partial {doc t k kl v : Bytes} {before after : List (Bytes × Bytes)}
    (ho : IsObject t (before ++ (kl, v) :: after)) (hd : Padded t doc)
    (hq : c! '?' ∉ k) (hkl : KeyIs kl k) (hb : ∀ m ∈ before, ¬ KeyIs m.1 k) :
    ∃ w, get doc (escapeKey k) = .ok w ∧ w.json = v ∧ w.kind = kindOf v ∧ SameAsText w v :=
  C17_escaped_partial ho hd (escapeKey_as k) (escapeKey_head k) hq hkl hb

/-- C17 is false: the key `a?`, escaped, finds the member `ab`. -/
theorem C17_false : escapeKey b!"a?" = b!"a\\?" ∧
    ∃ w, get b!"{\"ab\":1,\"a?\":2}" (escapeKey b!"a?") = .ok w ∧ w.json = b!"1" :=
  ⟨by decide, _, rfl, by decide +kernel⟩

example : escapeKey b!"fav.mo|*ie\\#" = b!"fav\\.mo\\|\\*ie\\\\\\#" := by decide
example : ∃ w, get b!"{\"x\":1,\"a.*\":2}" (escapeKey b!"a.*") = .ok w ∧ w.json = b!"2" := ⟨_, rfl, by decide +kernel⟩

/-! ### C19 -/

/-- C19: for every text, the result of a dot path of keys (plain, with wildcards or
escapes) or indexes is a piece of the text. -/
theorem C19_piece {text : Bytes} {ks : List Bytes} {v : Value} (hk : ∀ k ∈ ks, Selector k) (hne : ks ≠ [])
    (h : get text (dotPath ks) = .ok v) : ∃ a b, text = a ++ v.json ++ b := by
  obtain ⟨⟨a, b, h⟩, _⟩ := get_piece (Nat.le_refl _) (fun k h => Selector.ord (hk k h)) hne h
  exact ⟨a, b, h.symm⟩

/-- C19 as claimed: plain components. -/
theorem C19_piece_plain {text : Bytes} {ks : List Bytes} {v : Value} (hk : ∀ k ∈ ks, PlainKey k ∧ k ≠ []) (hne : ks ≠ [])
    (h : get text (dotPath ks) = .ok v) : ∃ a b, text = a ++ v.json ++ b :=
  C19_piece (fun k h => PlainKey.selector (hk k h).1 (hk k h).2) hne h

example : ∃ v, get b!"{\"a\":[1,\"x\" 2" b!"a.1" = .ok v ∧ v.json = b!"\"x\"" := ⟨_, rfl, by decide +kernel⟩

/-! ### C40 -/

/-- C40: `get` gives the same result whatever whitespace surrounds the document. -/
theorem C40_get {t d1 d2 : Bytes} {ks : List Bytes} (hv : IsValue t) (h1 : Padded t d1) (h2 : Padded t d2)
    (hk : ∀ k ∈ ks, Selector k) (hne : ks ≠ []) : SameRes (get d1 (dotPath ks)) (get d2 (dotPath ks)) :=
  get_padded (fun k h => Selector.ord (hk k h)) hne hv h1 h2

example : Padded b!"[1]" b!" \n[1]\t" := ⟨b!" \n", b!"\t", by decide, by decide, rfl⟩

end Gjson
