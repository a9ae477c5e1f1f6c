import Verif.Lemmas.Inside
import Verif.Lemmas.Examples
import Verif.Props.Lookup
/-
C10 and C11 for all documents: what a dot path finds, and when that is what its
components lead to. `Spec.Find` (`Verif/SpecSearch.lean`) describes the search in
terms of the members and elements of the document.

A component `k` hits the key literal `kl` when the pattern `k` matches what `kl`
denotes; in the patterns of the code `\?` stands for any byte (`C16_pmatch_code`).
-/
namespace Gjson
open Spec

/-- The component `k` selects members with the key literal `kl`. -/
def Hits (k kl : Bytes) : Prop := ∃ s, KeyIs kl s ∧ MatchesE (fun c d => c = d ∨ c = c! '?') k s

/-- C10, every search has an outcome. -/
theorem C10_search_total (Hit : Bytes → Bytes → Prop) {v : Bytes} {ks : List Bytes} (hv : IsValue v) (hne : ks ≠ []) :
    ∃ o, Find Hit v ks o := find_total Hit hne hv

/-- C10, exactly what is found: for every document and every path of dot-separated
keys (plain, with wildcards or escapes) and indexes, `get` returns the value the
search finds, with its text and kind, or, if the search finds nothing, a value
that cannot be told from the missing one. -/
theorem C10_exact {doc v : Bytes} {ks : List Bytes} (hv : IsValue v) (hd : Padded v doc) (hk : ∀ k ∈ ks, Selector k) (hne : ks ≠ []) :
    ∃ w, get doc (dotPath ks) = .ok w ∧ (∀ r, Find Hits v ks (.found r) → SameAsText w r) ∧
      ((∀ r, ¬ Find Hits v ks (.found r)) → SameValue w Value.default ∧ w.exists = false) := by
  have ho : OrdComps ks := fun k h => Selector.ord (hk k h)
  have key : ∀ o, Find Hits v ks o → Shows (get doc (dotPath ks)) o := fun o h => find_get h hv hd ho hitOk_code
  obtain ⟨o, h⟩ := C10_search_total Hits hv hne
  obtain ⟨w, hw⟩ : ∃ w, get doc (dotPath ks) = .ok w := by
    cases o with
    | found r => obtain ⟨w, h1, _⟩ := key _ h; exact ⟨w, h1⟩
    | lost => obtain ⟨w, h1, _⟩ := key _ h; exact ⟨w, h1⟩
    | miss => obtain ⟨w, h1, _⟩ := key _ h; exact ⟨w, h1⟩
  refine ⟨w, hw, fun r hr => ?_, fun hn => ?_⟩
  · obtain ⟨w', h1, h2⟩ := key _ hr
    rw [hw] at h1
    cases h1
    exact h2
  · obtain ⟨w', h1, h2⟩ := shows_lost (key _ h) (fun r e => hn r (e ▸ h))
    rw [hw] at h1
    cases h1
    exact ⟨h2, h2.exists⟩

/-- C10, exactly what is found, for plain keys: a component hits the members whose
key it is. -/
theorem C10_exact_plain {doc v : Bytes} {ks : List Bytes} (hv : IsValue v) (hd : Padded v doc) (hp : ∀ k ∈ ks, PlainKey k ∧ k ≠ [])
    (hne : ks ≠ []) : ∃ w, get doc (dotPath ks) = .ok w ∧ (∀ r, Find (fun k kl => KeyIs kl k) v ks (.found r) → SameAsText w r) ∧
      ((∀ r, ¬ Find (fun k kl => KeyIs kl k) v ks (.found r)) → SameValue w Value.default ∧ w.exists = false) := by
  have ho : OrdComps ks := fun k h => plain_ord (hp k h).1 (hp k h).2
  have key : ∀ o, Find (fun k kl => KeyIs kl k) v ks o → Shows (get doc (dotPath ks)) o :=
    fun o h => find_get h hv hd ho (hitOk_plain fun k h => (hp k h).1)
  obtain ⟨w, hw, _⟩ := C10_exact hv hd (fun k h => PlainKey.selector (hp k h).1 (hp k h).2) hne
  refine ⟨w, hw, fun r hr => ?_, fun hn => ?_⟩
  · obtain ⟨w', h1, h2⟩ := key _ hr
    rw [hw] at h1
    cases h1
    exact h2
  · obtain ⟨o, h⟩ := C10_search_total (fun k kl => KeyIs kl k) hv hne
    obtain ⟨w', h1, h2⟩ := shows_lost (key _ h) (fun r e => hn r (e ▸ h))
    rw [hw] at h1
    cases h1
    exact ⟨h2, h2.exists⟩

/-- C10: whatever is found is a value of the document: the document itself, a member's
value or an element at some depth. -/
theorem C10_inside {doc v : Bytes} {ks : List Bytes} (hv : IsValue v) (hd : Padded v doc) (hk : ∀ k ∈ ks, Selector k) (hne : ks ≠ []) :
    ∃ w, get doc (dotPath ks) = .ok w ∧ (w.exists = true → Inside v w.json ∧ IsValue w.json ∧ SameAsText w w.json) := by
  obtain ⟨w, h1, h2, h3⟩ := C10_exact hv hd hk hne
  refine ⟨w, h1, fun he => ?_⟩
  by_cases hf : ∃ r, Find Hits v ks (.found r)
  · obtain ⟨r, hf⟩ := hf
    have hs := h2 r hf
    have hi := find_inside hf rfl
    rw [hs.1]
    exact ⟨hi, hi.value hv, hs⟩
  · rw [(h3 fun r hr => hf ⟨r, hr⟩).2] at he
    cases he

/-- C10 for documents in which the keys of the path are not nested: in each object
at most one member has the key, and inside its value no member has it. Missing:
nested and repeated keys, for which it is false (`C10_false`); for these
`C10_exact_plain` says what is found. -/
theorem C10_unnested_partial {doc v : Bytes} {ks : List Bytes} (hv : IsValue v) (hd : Padded v doc)
    (hp : ∀ k ∈ ks, PlainKey k ∧ k ≠ []) (hne : ks ≠ []) (hn : ¬ ∃ r, Resolves KeyIs v ks r)
    (hu : ∀ k ∈ ks, Unnested (fun kl => KeyIs kl k) v) :
    ∃ w, get doc (dotPath ks) = .ok w ∧ w.exists = false ∧ SameValue w Value.default := by
  obtain ⟨w, h1, _, h3⟩ := C10_exact_plain hv hd hp hne
  have := h3 fun r hr => hn ⟨r, unnested_find hr (fun k _ kl hkl => ⟨Iff.rfl, by
    obtain ⟨s, h, _⟩ := keyIs_total hkl; exact ⟨s, h⟩⟩) hu⟩
  exact ⟨w, h1, this.2, this.1⟩

/-- C11 for documents in which the first key is not nested: a dot is a second
lookup, whatever the rest of the path finds or does not find. Missing: nested and
repeated keys, for which it is false (`C11_false`). -/
theorem C11_unnested_partial {doc v k : Bytes} {ks : List Bytes} (hv : IsValue v) (hd : Padded v doc) (hk : Selector k)
    (hks : ∀ k ∈ ks, Selector k) (hne : ks ≠ []) (hu : Unnested (Hits k) v) :
    SameRes (get doc (dotPath (k :: ks))) (get doc k >>= fun w => w.get (dotPath ks)) :=
  unnested_dot hv hd (fun x hx => by
    simp only [List.mem_cons] at hx
    rcases hx with rfl | hx
    · exact Selector.ord hk
    · exact Selector.ord (hks x hx)) hne hitOk_code hu

/-- C11 for plain keys that are not nested. -/
theorem C11_unnested_plain_partial {doc v a b : Bytes} (hv : IsValue v) (hd : Padded v doc) (ha : PlainKey a ∧ a ≠ [])
    (hb : PlainKey b ∧ b ≠ []) (hu : Unnested (fun kl => KeyIs kl a) v) :
    SameRes (get doc (a ++ c! '.' :: b)) (get doc a >>= fun w => w.get b) :=
  unnested_dot (Hit := fun k kl => KeyIs kl k) (ks := [b]) hv hd (fun x hx => by
    simp only [List.mem_cons, List.not_mem_nil, or_false] at hx
    rcases hx with rfl | rfl
    · exact plain_ord ha.1 ha.2
    · exact plain_ord hb.1 hb.2) (by simp) (hitOk_plain fun x hx => by
      simp only [List.mem_cons, List.not_mem_nil, or_false] at hx
      rcases hx with rfl | rfl
      · exact ha.1
      · exact hb.1) hu

/-- A document with a key that is not nested, though it occurs twice, once with an
escape. -/
example : Unnested (fun kl => KeyIs kl b!"a") b!"{\"b\":{\"a\":[{\"x\":1}]},\"\\u0061\":{\"b\":2}}" := by
  have := unnested_of (P := keyIsB b!"a") (v := b!"{\"b\":{\"a\":[{\"x\":1}]},\"\\u0061\":{\"b\":2}}") (by decide +kernel)
  simpa only [keyIsB_iff] using this

theorem isObject_of {t : Bytes} {kvs : List (Bytes × Bytes)} (h : valid t = .ok true) (ht : trimmed t = true) (hk : kindOf t = .object)
    (hm : membersOf t = kvs) : IsObject t kvs := by
  subst hm
  rcases isCont_cases (value_of_valid h ht) (.inl hk) with ⟨kvs, ho⟩ | ⟨vs, ha⟩
  · rw [← isObject_fun ho]; exact ho
  · rw [IsArray.kindOf ha] at hk; cases hk

/-- A key that is nested. -/
example : HasKey (fun kl => KeyIs kl b!"a") b!"{\"b\":1,\"a\":1}" :=
  ⟨_, [(b!"\"b\"", b!"1"), (b!"\"a\"", b!"1")], (b!"\"a\"", b!"1"), .here, isObject_of (t := b!"{\"b\":1,\"a\":1}") (by decide +kernel) (by decide) (by decide) (by decide +kernel),
    by simp, keyIsB_iff.1 (by decide +kernel)⟩

/-- How `a.x` finds something in the document of `C10_false`: the value of the
outer `a` has no `x`, so the search goes on inside it. -/
example : Find (fun k kl => KeyIs kl k) b!"{\"a\":{\"a\":{\"x\":1}}}" [b!"a", b!"x"] (.found b!"1") := by
  have key : ∀ {k kl : Bytes}, keyIsB k kl = true → KeyIs kl k := fun h => keyIsB_iff.1 h
  have nokey : ∀ {k kl : Bytes}, keyIsB k kl = false → ¬ KeyIs kl k := fun h g => by rw [keyIsB_iff.2 g] at h; cases h
  have h1 : IsObject b!"{\"a\":{\"a\":{\"x\":1}}}" [(b!"\"a\"", b!"{\"a\":{\"x\":1}}")] :=
    isObject_of (t := b!"{\"a\":{\"a\":{\"x\":1}}}") (by decide +kernel) (by decide) (by decide) (by decide +kernel)
  have h2 : IsObject b!"{\"a\":{\"x\":1}}" [(b!"\"a\"", b!"{\"x\":1}")] :=
    isObject_of (t := b!"{\"a\":{\"x\":1}}") (by decide +kernel) (by decide) (by decide) (by decide +kernel)
  have h3 : IsObject b!"{\"x\":1}" [(b!"\"x\"", b!"1")] :=
    isObject_of (t := b!"{\"x\":1}") (by decide +kernel) (by decide) (by decide) (by decide +kernel)
  refine .obj h1 (.again (key (by decide +kernel)) (.inl (by decide)) (.obj h2 (.skip (nokey (by decide +kernel)) .nil)) (.obj h2) ?_)
  exact .into (key (by decide +kernel)) (.inl (by decide)) (.obj h3 (.last (key (by decide +kernel)))) (by simp)

/-! ### C16 and C17 in full, as the code matches -/

/-- C16 in lookups, for all components: the first member with a key that the component
hits. -/
theorem C16_get_exact {doc t k kl v : Bytes} {before after : List (Bytes × Bytes)}
    (ho : IsObject t (before ++ (kl, v) :: after)) (hd : Padded t doc) (hk : Selector k)
    (hm : Hits k kl) (hb : ∀ m ∈ before, ¬ Hits k m.1) :
    ∃ w, get doc k = .ok w ∧ w.json = v ∧ w.kind = kindOf v ∧ SameAsText w v := by
  obtain ⟨e, p, hc⟩ := CompText.body hk.1
  obtain ⟨s, hkl, hm⟩ := hm
  obtain ⟨w, h1, h2⟩ := (oneComp hc (plainFirst_of hk.2.1)).hit ho hd hkl
    ((matches_code hc 0 [] s 0).2 hm) (fun m hm => by
      obtain ⟨s, h1, h2⟩ := keyIs_total (IsObject.mem_value ho m (by simp [hm])).1
      exact ⟨s, h1, by rw [Bool.eq_false_iff, ne_eq, matches_code hc]; exact fun h => hb m hm ⟨s, h1, h⟩⟩)
  exact ⟨w, h1, h2.1, h2.2.1, h2⟩

/-- C16 in lookups, for all components: no key is hit. -/
theorem C16_get_missing_exact {doc t k : Bytes} {kvs : List (Bytes × Bytes)} (ho : IsObject t kvs) (hd : Padded t doc)
    (hk : Selector k) (hb : ∀ m ∈ kvs, ¬ Hits k m.1) : ∃ w, get doc k = .ok w ∧ w.exists = false := by
  obtain ⟨e, p, hc⟩ := CompText.body hk.1
  refine ⟨_, (oneComp hc (plainFirst_of hk.2.1)).miss ho hd (fun m hm => ?_), rfl⟩
  obtain ⟨s, h1, h2⟩ := keyIs_total (IsObject.mem_value ho m hm).1
  exact ⟨s, h1, by rw [Bool.eq_false_iff, ne_eq, matches_code hc]; exact fun h => hb m hm ⟨s, h1, h⟩⟩

/-- `s` is `k`, or differs from it only where `k` has a question mark. -/
def AlmostKey (k s : Bytes) : Prop := Aligned (fun c d => c = d ∨ c = c! '?') k s

theorem escapedAs_code {k p : Bytes} (h : EscapedAs k p) : ∀ s, MatchesE (fun c d => c = d ∨ c = c! '?') p s ↔ AlmostKey k s := by
  unfold AlmostKey
  induction h with
  | nil =>
    intro s
    constructor
    · intro h; cases h; exact .nil
    · intro h; cases h; exact .nil
  | @plain c k p hc _ ih =>
    have hs : c ≠ c! '*' ∧ c ≠ c! '?' ∧ c ≠ c! '\\' := by unfold pathSpecial at hc; simp at hc; grind
    intro s
    constructor
    · intro h
      cases h with
      | star => exact absurd rfl hs.1
      | any => exact absurd rfl hs.2.1
      | esc => exact absurd rfl hs.2.2
      | plain _ _ _ h => exact .cons (.inl rfl) ((ih _).1 h)
    · intro h
      cases h with
      | cons h1 h2 =>
        rcases h1 with rfl | rfl
        · exact .plain hs.1 hs.2.1 hs.2.2 ((ih _).2 h2)
        · exact absurd rfl hs.2.1
  | @esc c k p _ ih =>
    intro s
    constructor
    · intro h
      cases h with
      | esc h1 h2 => exact .cons h1 ((ih _).1 h2)
      | plain _ _ h => exact absurd rfl h
    · intro h
      cases h with
      | cons h1 h2 => exact .esc h1 ((ih _).2 h2)

/-- C17, exactly what is found, for all keys: a path that writes the key with escapes
finds the first member whose key is the same but for the question marks, in the place of
which any byte may stand. -/
theorem C17_exact {doc t k p kl s v : Bytes} {before after : List (Bytes × Bytes)}
    (ho : IsObject t (before ++ (kl, v) :: after)) (hd : Padded t doc) (he : EscapedAs k p) (hf : ∀ c ∈ p.head?, c ∉ pathStart)
    (hkl : KeyIs kl s) (hs : AlmostKey k s) (hb : ∀ m ∈ before, ∀ s, KeyIs m.1 s → ¬ AlmostKey k s) :
    ∃ w, get doc p = .ok w ∧ w.json = v ∧ w.kind = kindOf v ∧ SameAsText w v := by
  obtain ⟨e, hc, _⟩ := EscapedAs.compBody he
  obtain ⟨w, h1, h2⟩ := (oneComp hc (plainFirst_of hf)).hit ho hd hkl
    ((matches_code hc 0 [] s 0).2 ((escapedAs_code he s).2 hs)) (fun m hm => by
      obtain ⟨s, h1, h2⟩ := keyIs_total (IsObject.mem_value ho m (by simp [hm])).1
      exact ⟨s, h1, by rw [Bool.eq_false_iff, ne_eq, matches_code hc]; exact fun h => hb m hm s h1 ((escapedAs_code he s).1 h)⟩)
  exact ⟨w, h1, h2.1, h2.2.1, h2⟩

/-- C17, exactly what is found: nothing if there is no such member. -/
theorem C17_exact_missing {doc t k p : Bytes} {kvs : List (Bytes × Bytes)} (ho : IsObject t kvs) (hd : Padded t doc)
    (he : EscapedAs k p) (hf : ∀ c ∈ p.head?, c ∉ pathStart) (hb : ∀ m ∈ kvs, ∀ s, KeyIs m.1 s → ¬ AlmostKey k s) :
    ∃ w, get doc p = .ok w ∧ w.exists = false := by
  obtain ⟨e, hc, _⟩ := EscapedAs.compBody he
  refine ⟨_, (oneComp hc (plainFirst_of hf)).miss ho hd (fun m hm => ?_), rfl⟩
  obtain ⟨s, h1, h2⟩ := keyIs_total (IsObject.mem_value ho m hm).1
  exact ⟨s, h1, by rw [Bool.eq_false_iff, ne_eq, matches_code hc]; exact fun h => hb m hm s h1 ((escapedAs_code he s).1 h)⟩

/-- The member that `C17_false` finds, and one that it passes over. -/
example : EscapedAs b!"a?" (escapeKey b!"a?") ∧ AlmostKey b!"a?" b!"ab" ∧ ¬ AlmostKey b!"a?" b!"bb" := by
  refine ⟨escapeKey_as _, .cons (.inl rfl) (.cons (.inr rfl) .nil), ?_⟩
  intro h
  cases h with
  | cons h1 _ => exact absurd h1 (by decide)

end Gjson
