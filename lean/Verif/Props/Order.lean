import Verif.Lemmas.Reorder
import Verif.Props.Layout
import Verif.Props.Search
/-
C50: `pretty` with `sort_keys` is a canonical form. C51: paths of keys and indices do not
depend on the order of members.

`SameMembers` is defined in `Verif/SpecOrder.lean`.
-/
namespace Gjson
open Spec

theorem same_symm {name : Bytes → Bytes} {d d' : Doc} (h : SameMembers name d d') : SameMembers name d' d := by
  induction h with
  | leaf => exact .leaf
  | @arr ps _ ih =>
    have := SameMembers.arr (name := name) (ps := ps.map Prod.swap) (by
      intro p hp
      obtain ⟨q, hq, rfl⟩ := List.mem_map.1 hp
      exact ih q hq)
    simpa [Function.comp_def] using this
  | @obj ms ms' ps _ e1 e2 ih =>
    refine .obj (ps := fun k => (ps k).map Prod.swap) (fun k p hp => ?_) (fun k => ?_) (fun k => ?_)
    · obtain ⟨q, hq, rfl⟩ := List.mem_map.1 hp
      exact ih k q hq
    · rw [← e2 k]; simp
    · rw [← e1 k]; simp

theorem same_height {d d' : Doc} (h : SameMembers id d d') (h1 : Denotable d) (h2 : Denotable d') : d'.height = d.height := by
  rw [← height_sort, ← sort_of_same h h1 h2, height_sort]

/-! ### C50 -/

/-- C50: with `sort_keys` and any other options, `pretty` gives the same text for two JSON
texts that are equal up to whitespace and the order of members. -/
theorem C50_same {t t' v v' : Bytes} {d d' : Doc} (hp : Padded v t) (hd : Denotes v d) (hp' : Padded v' t') (hd' : Denotes v' d')
    (hlim : d.height < 500) (h : SameMembers id d d') {o : PrettyOptions} (hsort : o.sortKeys = true) :
    prettyOptions t o = prettyOptions t' o := by
  rw [C43_layout hp hd hlim, C43_layout hp' hd' (by rwa [same_height h ⟨_, hd⟩ ⟨_, hd'⟩]), hsort, if_pos rfl, if_pos rfl,
    sort_of_same h ⟨_, hd⟩ ⟨_, hd'⟩]

/-- C50: only for those. This direction holds at any depth. -/
theorem C50_only {t t' v v' : Bytes} {d d' : Doc} (hp : Padded v t) (hd : Denotes v d) (hp' : Padded v' t') (hd' : Denotes v' d')
    {o : PrettyOptions} (hpfx : Ws o.pfx) (hind : Ws o.indent) (hsort : o.sortKeys = true)
    (h : prettyOptions t o = prettyOptions t' o) : SameMembers id d d' := by
  obtain ⟨out, u, h1, h2, h3⟩ := C38_exact hp hd hpfx hind hsort
  obtain ⟨out', u', h1', h2', h3'⟩ := C38_exact hp' hd' hpfx hind hsort
  rw [h1, h1'] at h
  cases h
  have e := toks_inj ⟨_, h3⟩ ⟨_, h3'⟩ ((tokens_padded h2 h3).symm.trans (tokens_padded h2' h3'))
  exact same_of_sort (by rw [← sort_sortLim 499 d, e, sort_sortLim])

/-- C50: `pretty` with `sort_keys`, and whitespace as prefix and indent, gives the same text
for two JSON texts iff they are equal up to whitespace and the order of members. -/
theorem C50_iff {t t' v v' : Bytes} {d d' : Doc} (hp : Padded v t) (hd : Denotes v d) (hp' : Padded v' t') (hd' : Denotes v' d')
    (hlim : d.height < 500) {o : PrettyOptions} (hpfx : Ws o.pfx) (hind : Ws o.indent) (hsort : o.sortKeys = true) :
    prettyOptions t o = prettyOptions t' o ↔ SameMembers id d d' :=
  ⟨C50_only hp hd hp' hd' hpfx hind hsort, fun h => C50_same hp hd hp' hd' hlim h hsort⟩

/-- C50: the same for `@pretty` with an argument that asks for sorted keys: the results are
the same values. -/
theorem C50_modifier {t t' v v' : Bytes} {d d' : Doc} (hp : Padded v t) (hd : Denotes v d) (hp' : Padded v' t') (hd' : Denotes v' d')
    (hlim : d.height < 500) (h : SameMembers id d d') {a m : Bytes} (hm : ModCall b!"pretty" a m)
    {ri rp rs rw : Value} (h1 : get a b!"indent" = .ok ri) (h2 : get a b!"prefix" = .ok rp) (h3 : get a b!"sortKeys" = .ok rs)
    (h4 : get a b!"width" = .ok rw) {indent pfx : Bytes} {width : Nat}
    (hi : OptionIs ri ri.str b!"  " indent) (hx : OptionIs rp rp.str [] pfx) (hs : OptionIs rs rs.bool false true)
    (hw : OptionIs rw rw.u32 80 width) : ∃ r r', get t m = .ok r ∧ get t' m = .ok r' ∧ SameValue r r' := by
  obtain ⟨r, p, g1, g2, g3⟩ := C43_modifier hp hd hm h1 h2 h3 h4 hi hx hs hw
  obtain ⟨r', p', g1', g2', g3'⟩ := C43_modifier hp' hd' hm h1 h2 h3 h4 hi hx hs hw
  have e : d.laid ⟨width, pfx, indent⟩ true 499 = d'.laid ⟨width, pfx, indent⟩ true 499 := by
    unfold Doc.laid
    have hh := same_height h ⟨_, hd⟩ ⟨_, hd'⟩
    rw [if_pos (show d.height ≤ 499 by omega), if_pos (show d'.height ≤ 499 by omega), if_pos rfl, if_pos rfl, sort_of_same h ⟨_, hd⟩ ⟨_, hd'⟩]
  rw [e, g2'] at g2
  cases g2
  exact ⟨r, r', g1, g1', g3.trans g3'.symm⟩

/-! The texts `{"b":1,"a":[1]}` and `{"a" : [ 1 ], "b":1}`. -/

/-- The document of the first text. -/
def orderDoc : Doc := .obj [(b!"\"b\"", .leaf b!"1"), (b!"\"a\"", .arr [.leaf b!"1"])]
/-- The document of the second text. -/
def orderDoc' : Doc := .obj [(b!"\"a\"", .arr [.leaf b!"1"]), (b!"\"b\"", .leaf b!"1")]

theorem orderDoc_denotes : Denotes b!"{\"b\":1,\"a\":[1]}" orderDoc :=
  Denotes.obj (ms := [(⟨[], b!"\"b\"", [], [], b!"1", []⟩, .leaf b!"1"), (⟨[], b!"\"a\"", [], [], b!"[1]", []⟩, _)]) (by simp)
    (by simp only [List.forall_mem_cons]; exact ⟨⟨ws_nil, strLit_b, ws_nil, ws_nil, ws_nil⟩, ⟨ws_nil, strLit_a, ws_nil, ws_nil, ws_nil⟩, by simp⟩)
    (by
      simp only [List.forall_mem_cons]
      exact ⟨denotes_one, .arr (es := [(⟨[], b!"1", []⟩, .leaf b!"1")]) (by simp) (by simp [Elem.Wf, ws_nil]) (by simpa using denotes_one), by simp⟩)

theorem orderDoc'_denotes : Denotes b!"{\"a\" : [ 1 ], \"b\":1}" orderDoc' :=
  Denotes.obj (ms := [(⟨[], b!"\"a\"", b!" ", b!" ", b!"[ 1 ]", []⟩, _), (⟨b!" ", b!"\"b\"", [], [], b!"1", []⟩, .leaf b!"1")]) (by simp)
    (by simp only [List.forall_mem_cons]; exact ⟨⟨ws_nil, strLit_a, by decide, by decide, ws_nil⟩, ⟨by decide, strLit_b, ws_nil, ws_nil, ws_nil⟩, by simp⟩)
    (by
      simp only [List.forall_mem_cons]
      exact ⟨.arr (es := [(⟨b!" ", b!"1", b!" "⟩, .leaf b!"1")]) (by simp) (by simp only [List.forall_mem_cons]; exact ⟨⟨by decide, by decide⟩, by simp⟩)
        (by simpa using denotes_one), denotes_one, by simp⟩)

theorem orderDoc_same : SameMembers id orderDoc orderDoc' := by
  refine same_of_sort ?_
  have hle : ¬ (rawKey b!"\"b\"" ≤ rawKey b!"\"a\"") := by decide
  have hle' : rawKey b!"\"a\"" ≤ rawKey b!"\"b\"" := by decide
  simp [orderDoc, orderDoc', Doc.sort, sortVals, sortElems, sortMembers, insertMember, hle, hle']

example : prettyOptions b!"{\"b\":1,\"a\":[1]}" ⟨80, b!">", b!"-", true⟩ = prettyOptions b!" {\"a\" : [ 1 ], \"b\":1}" ⟨80, b!">", b!"-", true⟩ :=
  C50_same (padded_self _) orderDoc_denotes ⟨b!" ", [], by decide, ws_nil, by decide⟩ orderDoc'_denotes (by decide) orderDoc_same rfl

/-- The same from the model. -/
example : prettyOptions b!"{\"b\":1,\"a\":[1]}" ⟨80, [], b!" ", true⟩ = .ok b!"{\n \"a\": [1],\n \"b\": 1\n}\n" ∧
    prettyOptions b!"{\"a\" : [ 1 ], \"b\":1}" ⟨80, [], b!" ", true⟩ = .ok b!"{\n \"a\": [1],\n \"b\": 1\n}\n" := by decide +kernel

/-- Members with the same key have to stay in their order. -/
example : prettyOptions b!"{\"a\":1,\"a\":2}" ⟨80, [], b!" ", true⟩ ≠ prettyOptions b!"{\"a\":2,\"a\":1}" ⟨80, [], b!" ", true⟩ := by decide +kernel

/-- C50 does not hold for documents nested 500 deep or more: `pretty` leaves the members of
`{"b":1,"a":[[…]]}` with 499 brackets as they are. -/
theorem C50_deep : ¬ ∀ (t t' v v' : Bytes) (d d' : Doc) (o : PrettyOptions), Padded v t → Denotes v d → Padded v' t' → Denotes v' d' →
    SameMembers id d d' → o.sortKeys = true → prettyOptions t o = prettyOptions t' o := by
  intro H
  obtain ⟨m, hm⟩ : ∃ m, m + 2 = MAX_DEPTH := ⟨498, rfl⟩
  have hd := Denotes.obj (ms := [(⟨[], b!"\"b\"", [], [], b!"1", []⟩, .leaf b!"1"), (⟨[], b!"\"a\"", [], [], _, []⟩, deepDoc m)]) (by simp)
      (by simp only [List.forall_mem_cons]; exact ⟨⟨ws_nil, strLit_b, ws_nil, ws_nil, ws_nil⟩, ⟨ws_nil, strLit_a, ws_nil, ws_nil, ws_nil⟩, by simp⟩)
      (by simp only [List.forall_mem_cons]; exact ⟨denotes_one, deepDoc_denotes m, by simp⟩)
  have hd' := Denotes.obj (ms := [(⟨[], b!"\"a\"", [], [], _, []⟩, deepDoc m), (⟨[], b!"\"b\"", [], [], b!"1", []⟩, .leaf b!"1")]) (by simp)
      (by simp only [List.forall_mem_cons]; exact ⟨⟨ws_nil, strLit_a, ws_nil, ws_nil, ws_nil⟩, ⟨ws_nil, strLit_b, ws_nil, ws_nil, ws_nil⟩, by simp⟩)
      (by simp only [List.forall_mem_cons]; exact ⟨deepDoc_denotes m, denotes_one, by simp⟩)
  have hle : ¬ (rawKey b!"\"b\"" ≤ rawKey b!"\"a\"") := by decide
  have hle' : rawKey b!"\"a\"" ≤ rawKey b!"\"b\"" := by decide
  have hh : m < (deepDoc m).height := by rw [deepDoc_height]; omega
  have e := H _ _ _ _ _ _ ⟨80, [], [], true⟩ (padded_self _) hd (padded_self _) hd'
    (same_of_sort (by simp [Doc.sort, sortVals, sortMembers, insertMember, hle, hle'])) rfl
  obtain ⟨out, u, h1, h2, h3⟩ := C38_exact (o := ⟨80, [], [], true⟩) (padded_self _) hd ws_nil ws_nil rfl
  obtain ⟨out', u', h4, h5, h6⟩ := C38_exact (o := ⟨80, [], [], true⟩) (padded_self _) hd' ws_nil ws_nil rfl
  rw [e, h4] at h1
  cases h1
  have htok := (tokens_padded h2 h3).symm.trans (tokens_padded h5 h6)
  rw [show (499 : Nat) = m + 1 by have : MAX_DEPTH = 500 := rfl; omega] at htok
  simp only [List.map_cons, List.map_nil] at htok
  rw [Doc.sortLim, if_neg (by simp only [memHeight, Doc.height]; omega), Doc.sortLim, if_neg (by simp only [memHeight, Doc.height]; omega)] at htok
  simp [Doc.toks, memToks, limVals, Doc.height, Nat.not_le.2 hh] at htok

/-! ### C51 -/

/-- Values that differ at most in whitespace and the order of members: both exist or both
do not, they have the same kind, the documents of their texts are equal up to the order of
members, and no accessor tells missing values and scalars apart. -/
structure OrderedAlike (name : Bytes → Bytes) (w w' : Value) : Prop where
  «exists» : w.exists = w'.exists
  kind : w.kind = w'.kind
  text : w.exists = true → SameText name w.json w'.json
  scalar : w.kind ≠ .object → w.kind ≠ .array → SameValue w w'

theorem hitsName_of_names {name : Bytes → Bytes} (hname : ∀ kl, StrLit kl → KeyIs kl (name kl)) {k s : Bytes} (h : Names k s) :
    HitsName Hits name k s := by
  intro kl hkl
  have hm := fun x => names_matches (E := fun c d => c = d ∨ c = c! '?') (fun c d hc => ⟨fun h => h.resolve_right hc, .inl⟩) h (s' := x)
  obtain ⟨x, hx, hu⟩ := keyIs_total hkl
  constructor
  · rintro ⟨y, h1, h2⟩
    rw [hm] at h2
    rw [hu _ (hname kl hkl), ← hu _ h1, h2]
  · intro e
    exact ⟨s, e ▸ hname kl hkl, (hm _).2 rfl⟩

theorem sameText_symm {name : Bytes → Bytes} {v v' : Bytes} (h : SameText name v v') : SameText name v' v := by
  obtain ⟨d, d', h1, h2, h3⟩ := h
  exact ⟨d', d, h2, h1, same_symm h3⟩

/-- C51: in JSON texts that are equal up to whitespace and the order of members, every path
of keys (without wildcards) and indices finds values that are again equal up to whitespace
and the order of members, or nothing in both. `name` is the key that a literal stands for. -/
theorem C51_order {doc doc' v v' : Bytes} {ks : List Bytes} {name : Bytes → Bytes} (hname : ∀ kl, StrLit kl → KeyIs kl (name kl))
    (hp : Padded v doc) (hp' : Padded v' doc') (hs : SameText name v v') (hk : ∀ k ∈ ks, Selector k ∧ ∃ s, Names k s) (hne : ks ≠ []) :
    ∃ w w', get doc (dotPath ks) = .ok w ∧ get doc' (dotPath ks) = .ok w' ∧ OrderedAlike name w w' := by
  have hv := sameText_value hs
  have hn : ∀ k ∈ ks, ∃ s, HitsName Hits name k s := fun k h => by
    obtain ⟨s, h⟩ := (hk k h).2
    exact ⟨s, hitsName_of_names hname h⟩
  obtain ⟨w, h1, h2, h3⟩ := C10_exact hv.1 hp (fun k h => (hk k h).1) hne
  obtain ⟨w', h1', h2', h3'⟩ := C10_exact hv.2 hp' (fun k h => (hk k h).1) hne
  refine ⟨w, w', h1, h1', ?_⟩
  by_cases hf : ∃ r, Find Hits v ks (.found r)
  · obtain ⟨r, hf⟩ := hf
    obtain ⟨o, g1, g2⟩ := find_same hf hn hs
    cases g2 with
    | @found _ r' hr =>
      have a := h2 r hf
      have a' := h2' r' g1
      have hvr := sameText_value hr
      have x := sameAsText_exists a (isValue_ne_nil hvr.1)
      have x' := sameAsText_exists a' (isValue_ne_nil hvr.2)
      refine ⟨by rw [x, x'], by rw [a.2.1, a'.2.1, sameText_kind hr], fun _ => by rw [a.1, a'.1]; exact hr, fun n1 n2 => ?_⟩
      obtain ⟨d, d', e1, e2, e3⟩ := hr
      rw [a.2.1, denotes_kind e1] at n1 n2
      cases e3 with
      | leaf => cases e1; cases e2; exact sameAsText_same a a'
      | arr => exact absurd rfl n2
      | obj => exact absurd rfl n1
  · have hf' : ∀ r, ¬ Find Hits v' ks (.found r) := by
      intro r hr
      obtain ⟨o, g1, g2⟩ := find_same hr hn (sameText_symm hs)
      cases g2 with
      | found => exact hf ⟨_, g1⟩
    obtain ⟨a1, a2⟩ := h3 fun r hr => hf ⟨r, hr⟩
    obtain ⟨a1', a2'⟩ := h3' hf'
    have e := a1.trans a1'.symm
    exact ⟨by rw [a2, a2'], e.kind, (by intro h; rw [a2] at h; cases h), fun _ _ => e⟩

/-- Plain keys and indices stand for themselves. -/
theorem names_plain {k : Bytes} (h : PlainKey k) : Names k k := by
  have : ∀ k : Bytes, (∀ c ∈ k, c ∉ pathSpecial) → Names k k := by
    intro k
    induction k with
    | nil => exact fun _ => .nil
    | cons c k ih =>
      intro h
      have hc := h c (by simp)
      have g : ∀ x ∈ pathSpecial, c ≠ x := by rintro x hx rfl; exact hc hx
      exact .plain (g _ (by decide)) (g _ (by decide)) (g _ (by decide)) (ih fun x hx => h x (List.mem_cons_of_mem _ hx))
  exact this k h.1

/-- C51 for paths of plain keys and indices. -/
theorem C51_order_plain {doc doc' v v' : Bytes} {ks : List Bytes} {name : Bytes → Bytes} (hname : ∀ kl, StrLit kl → KeyIs kl (name kl))
    (hp : Padded v doc) (hp' : Padded v' doc') (hs : SameText name v v') (hk : ∀ k ∈ ks, PlainKey k ∧ k ≠ []) (hne : ks ≠ []) :
    ∃ w w', get doc (dotPath ks) = .ok w ∧ get doc' (dotPath ks) = .ok w' ∧ OrderedAlike name w w' :=
  C51_order hname hp hp' hs (fun k h => ⟨PlainKey.selector (hk k h).1 (hk k h).2, k, names_plain (hk k h).1⟩) hne

/-- There are such names. -/
theorem exists_name : ∃ name : Bytes → Bytes, ∀ kl, StrLit kl → KeyIs kl (name kl) := by
  have : ∀ kl : Bytes, ∃ s, StrLit kl → KeyIs kl s := by
    intro kl
    by_cases h : StrLit kl
    · obtain ⟨s, hs, _⟩ := keyIs_total h
      exact ⟨s, fun _ => hs⟩
    · exact ⟨[], fun h' => absurd h' h⟩
  exact ⟨fun kl => Classical.choose (this kl), fun kl => Classical.choose_spec (this kl)⟩

/-- The path `a.0` in the texts above. -/
example : ∃ w w' : Value, get b!"{\"b\":1,\"a\":[1]}" b!"a.0" = .ok w ∧ get b!"{\"a\" : [ 1 ], \"b\":1}" b!"a.0" = .ok w' ∧
    w.json = b!"1" ∧ w'.json = b!"1" := ⟨_, _, rfl, rfl, by decide +kernel⟩

/-- The texts are equal up to whitespace and the order of members. -/
theorem orderDoc_same_name {name : Bytes → Bytes} (hname : ∀ kl, StrLit kl → KeyIs kl (name kl)) : SameMembers name orderDoc orderDoc' := by
  have key : ∀ b : Bytes, StrBody b → name (c! '"' :: (b ++ [c! '"'])) = unesc b := fun b hb => (keyIs_lit hb).1 (hname _ ⟨b, hb, rfl⟩)
  have ha : name b!"\"a\"" = b!"a" := key b!"a" (.plain (by decide) (by decide) (by decide) .nil)
  have hb : name b!"\"b\"" = b!"b" := key b!"b" (.plain (by decide) (by decide) (by decide) .nil)
  refine .obj (ps := fun k => if k = b!"a" then [(.arr [.leaf b!"1"], .arr [.leaf b!"1"])] else if k = b!"b" then [(.leaf b!"1", .leaf b!"1")] else [])
    (fun k p hp => ?_) (fun k => ?_) (fun k => ?_)
  · split at hp
    · simp only [List.mem_singleton] at hp
      subst hp
      exact .arr (ps := [(.leaf b!"1", .leaf b!"1")]) (by simpa using .leaf)
    · split at hp
      · simp only [List.mem_singleton] at hp
        subst hp
        exact .leaf
      · simp at hp
  · by_cases h1 : k = b!"a"
    · subst h1; simp [valuesOf, ha, hb]
    · by_cases h2 : k = b!"b"
      · subst h2; simp [valuesOf, ha, hb]
      · simp [valuesOf, ha, hb, h1, h2, eq_comm]
  · by_cases h1 : k = b!"a"
    · subst h1; simp [valuesOf, ha, hb]
    · by_cases h2 : k = b!"b"
      · subst h2; simp [valuesOf, ha, hb]
      · simp [valuesOf, ha, hb, h1, h2, eq_comm]

/-- The hypotheses of `C51_order_plain` for the path `a.0`. -/
example {name : Bytes → Bytes} (hname : ∀ kl, StrLit kl → KeyIs kl (name kl)) :
    ∃ w w', get b!"{\"b\":1,\"a\":[1]}" b!"a.0" = .ok w ∧ get b!"{\"a\" : [ 1 ], \"b\":1}" b!"a.0" = .ok w' ∧ OrderedAlike name w w' :=
  C51_order_plain (ks := [b!"a", b!"0"]) hname (padded_self _) (padded_self _)
    ⟨_, _, orderDoc_denotes, orderDoc'_denotes, orderDoc_same_name hname⟩ (by decide +kernel) (by simp)

/-- Members with the same key have to stay in their order also if the key is written in two
ways: the first one is found. -/
theorem C51_alias : (∃ w, get b!"{\"a\":1,\"\\u0061\":2}" b!"a" = .ok w ∧ w.json = b!"1") ∧
    ∃ w, get b!"{\"\\u0061\":2,\"a\":1}" b!"a" = .ok w ∧ w.json = b!"2" :=
  ⟨⟨_, rfl, by decide +kernel⟩, _, rfl, by decide +kernel⟩

/-- The order matters for patterns, which find the first member that matches. -/
theorem C51_pattern : (∃ w, get b!"{\"a\":1,\"b\":2}" b!"?" = .ok w ∧ w.json = b!"1") ∧
    ∃ w, get b!"{\"b\":2,\"a\":1}" b!"?" = .ok w ∧ w.json = b!"2" :=
  ⟨⟨_, rfl, by decide +kernel⟩, _, rfl, by decide +kernel⟩

/-- Paths that cannot be followed, too, find the same (see `C10_false`). -/
example : (∃ w, get b!"{\"a\":{\"a\":{\"x\":1},\"b\":2}}" b!"a.x" = .ok w ∧ w.json = b!"1") ∧
    ∃ w, get b!"{\"a\":{\"b\":2,\"a\":{\"x\":1}}}" b!"a.x" = .ok w ∧ w.json = b!"1" :=
  ⟨⟨_, rfl, by decide +kernel⟩, _, rfl, by decide +kernel⟩

/-- A component with escapes. -/
example : Names b!"a\\.b\\*" b!"a.b*" :=
  .plain (by decide) (by decide) (by decide) (.esc (by decide) (.plain (by decide) (by decide) (by decide) (.esc (by decide) .nil)))

end Gjson
