import Verif.Lemmas.Yield
import Verif.Props.Whole
import Verif.Props.Pairs
/-
C73: what is read from any text, JSON or not, and what modifiers make of it.
C74: what every path finds in any text.
-/
namespace Gjson
open Spec

/-! ### C73: values, elements and members in any text -/

/-- C73: `parse` takes from any text what `Parsed` says. -/
theorem C73_parse (doc x : Bytes) : (∃ v, parse doc = .ok v ∧ v.json = x) ↔ Parsed doc x := by
  constructor
  · rintro ⟨v, h1, h2⟩
    obtain ⟨y, hy⟩ := parsed_total doc
    obtain ⟨w, h3, h4, _⟩ := parsed_value hy
    rw [h1] at h3
    cases h3
    rw [← h2, h4]
    exact hy
  · intro h
    obtain ⟨v, h1, h2, _⟩ := parsed_value h
    exact ⟨v, h1, h2⟩

theorem bracket_json {v : Value} (h : Handed v) (hk : v.kind = .object ∨ v.kind = .array) :
    ∃ r, v.json = (if v.kind = .object then c! '{' else c! '[') :: r := by
  have he := exists_cont h hk
  have hj := C62_kind h he
  rcases hk with hk | hk
  · rw [hk] at hj ⊢
    obtain ⟨r, hr⟩ := kindOf_object hj.symm
    exact ⟨r, by rw [hr]; rfl⟩
  · rw [hk] at hj ⊢
    obtain ⟨r, hr⟩ := kindOf_array hj.symm
    exact ⟨r, by rw [hr]; rfl⟩

theorem visit_push {vals : List Value} : ∀ acc : List Value,
    visit (fun st e => (.ok (st ++ [e], true) : Res (List Value × Bool))) acc vals = .ok (acc ++ vals) := by
  induction vals with
  | nil => intro acc; simp [visit]
  | cons v vs ih => intro acc; simp [visit, ih]

/-- C73: the elements of every array that is handed out, closed or not, are the values met behind
its bracket; each of them is as if its own text were parsed. -/
theorem C73_array {v : Value} (h : Handed v) (hk : v.kind = .array) : ∃ r vs vals, v.json = c! '[' :: r ∧ Listing r vs ∧
    v.array = .ok vals ∧ vals.map Value.json = vs ∧ Aligned SameAsText vals vs := by
  obtain ⟨r, hr⟩ := bracket_json h (.inr hk)
  rw [hk] at hr
  obtain ⟨vs, hl⟩ := listing_total _ r (Nat.lt_succ_self _)
  obtain ⟨vals, h1, h2⟩ := each_listing hr hk hl
  have h1' := aligned_imp h1 fun _ _ h => h.1
  refine ⟨r, vs, vals, hr, hl, ?_, ?_, h1'⟩
  · rw [Value.array, if_pos hk, h2, visit_push, List.nil_append]
  · clear h2 h1 hl
    induction h1' with
    | nil => rfl
    | cons h _ ih => rw [List.map_cons, h.1, ih]

/-- C73: the members of every object that is handed out are these values two by two. -/
theorem C73_pairs {v : Value} (h : Handed v) (hk : v.kind = .object) : ∃ r vs ps, v.json = c! '{' :: r ∧ Listing r vs ∧
    v.pairs = .ok ps ∧ ps.map (fun p => (p.1.json, p.2.json)) = twos vs ∧ Aligned SamePair ps (twos vs) := by
  obtain ⟨r, hr⟩ := bracket_json h (.inl hk)
  rw [hk] at hr
  obtain ⟨vs, hl⟩ := listing_total _ r (Nat.lt_succ_self _)
  have h1 := pairUp_twos (listing_toks hl 1)
  refine ⟨r, vs, pairUp (toks 1 r), hr, hl, ?_, ?_, h1⟩
  · rw [Value.pairs, each_twos hr hk, visit_collect_pairs, List.nil_append]
  · generalize pairUp (toks 1 r) = l at h1
    generalize twos vs = m at h1
    induction h1 with
    | nil => rfl
    | cons h _ ih => rw [List.map_cons, h.1.1, h.2.1, ih]

/-- C73: no text is read in two ways. -/
theorem C73_one {s : Bytes} : (∀ v v' r r', ValueAt s v r → ValueAt s v' r' → v = v' ∧ r = r') ∧
    (∀ x x', Parsed s x → Parsed s x' → x = x') ∧ ∀ vs vs', Listing s vs → Listing s vs' → vs = vs' := by
  refine ⟨fun _ _ _ _ => valueAt_one, fun x x' h h' => ?_, fun _ _ => listing_one⟩
  rw [← parsed_json h 0, ← parsed_json h' 0]

/-- C73: every modifier but `@pretty`, with any argument, makes of any text what `Turns` says. -/
theorem C73_modifier {n : Bytes} (hn : n ≠ b!"pretty") (a doc out : Bytes) : modApply get n doc a = .ok out ↔ Turns n a doc out := by
  constructor
  · intro h
    obtain ⟨o, h1, _⟩ := turns_always hn a doc
    have h2 := turns_ok h1
    rw [h] at h2
    cases h2
    exact h1
  · exact turns_ok

/-- C73: and this is what a path with the modifier parses. -/
theorem C73_call {path n a : Bytes} {P : Parts} (hc : CutUp path P) (hs : P.sep = 0) (h : CallOf P.comp P.arg n a) (hn : n ≠ b!"pretty")
    (doc x : Bytes) : (∃ v, get doc path = .ok v ∧ v.json = x) ↔ ∃ out, Turns n a doc out ∧ Parsed out x := by
  obtain ⟨o, h1, _⟩ := turns_always hn a doc
  obtain ⟨y, hy⟩ := parsed_total o
  have hg : get doc path = .ok (jsonIntoOwned (pParse 0 o)) := by
    rw [get_call hc h, turns_ok h1, ok_bind, goOn, if_pos hs]
  have hj : (jsonIntoOwned (pParse 0 o)).json = y := by
    rw [jsonIntoOwned_json (pParse_oneText o 0), parsed_json hy 0]
  constructor
  · rintro ⟨v, h2, h3⟩
    rw [hg] at h2
    cases h2
    rw [← h3, hj]
    exact ⟨o, h1, hy⟩
  · rintro ⟨o', h2, h3⟩
    have e := turns_ok h2
    rw [turns_ok h1] at e
    cases e
    exact ⟨_, hg, hj.trans (C73_one.2.1 _ _ hy h3)⟩

/-! ### C74: every path in any text -/

/-- C74: `get` obeys the rules. -/
theorem C74_sound {doc path r : Bytes} (h : Yields doc path r) :
    ∃ v, get doc path = .ok v ∧ v.json = r ∧ v.kind = kindOf r ∧ v.exists = decide (r ≠ []) := by
  obtain ⟨n, h⟩ := h
  obtain ⟨v, h1, h2⟩ := yieldsAt_ok n _ _ _ h
  refine ⟨v, h1, h2.1, ?_, fits_exists h2⟩
  by_cases hr : r = []
  · rw [(h2.2 hr).kind, hr]
    decide
  · rw [C62_kind (.get h1) (by rw [fits_exists h2]; simpa using hr), h2.1]

/-- C74: they give no more than one result. -/
theorem C74_one {doc path r r' : Bytes} (h : Yields doc path r) (h' : Yields doc path r') : r = r' := by
  obtain ⟨v, h1, h2, _⟩ := C74_sound h
  obtain ⟨v', h1', h2', _⟩ := C74_sound h'
  rw [h1] at h1'
  cases h1'
  rw [← h2, h2']

/-- C74: where no modifier is called, there is a result in every text; with modifiers other than
`@pretty`, in every text that does not begin with an open string. -/
theorem C74_total {doc path : Bytes} (hp : Unpretty path) (hd : Fair doc ∨ NoCalls path) :
    ∃ r, YieldsAt (path.length + 1) doc path r ∧ Fair r :=
  yieldsAt_total _ path (Nat.lt_succ_self _) (unpretty_covered hp) doc hd

theorem noCalls_unpretty {path : Bytes} (h : NoCalls path) : Unpretty path := fun q P n a h1 h2 h3 => absurd h3 (h q P n a h1 h2)

theorem yields_exact {doc path : Bytes} (h : ∃ r, Yields doc path r) (r : Bytes) :
    (∃ v, get doc path = .ok v ∧ v.json = r) ↔ Yields doc path r := by
  constructor
  · rintro ⟨v, h1, h2⟩
    obtain ⟨r', h⟩ := h
    obtain ⟨v', h3, h4, _⟩ := C74_sound h
    rw [h1] at h3
    cases h3
    rw [← h2, h4]
    exact h
  · intro h
    obtain ⟨v, h1, h2, _⟩ := C74_sound h
    exact ⟨v, h1, h2⟩

/-- C74: so they say exactly what `get` returns. -/
theorem C74_exact {doc path : Bytes} (hp : Unpretty path) (hd : Fair doc ∨ NoCalls path) (r : Bytes) :
    (∃ v, get doc path = .ok v ∧ v.json = r) ↔ Yields doc path r :=
  yields_exact ((C74_total hp hd).imp fun _ h => ⟨_, h.1⟩) r

theorem call_infix {q path n a : Bytes} {P : Parts} (hq : Asked q path) (hc : CutUp q P) (h : CallOf P.comp P.arg n a) : c! '@' :: n <:+: path := by
  have h1 : P.comp <:+: path := (cut_rest hc).2.trans (asked_infix hq)
  refine List.IsInfix.trans ?_ h1
  generalize P.comp = x at h
  generalize P.arg = y at h
  cases h with
  | bare => exact List.infix_refl _
  | arg => exact (List.prefix_append (c! '@' :: n) (c! ':' :: a)).isInfix

/-- C74: without the byte `@` in the path: in every text. -/
theorem C74_plain {path : Bytes} (hp : c! '@' ∉ path) (doc r : Bytes) : (∃ v, get doc path = .ok v ∧ v.json = r) ↔ Yields doc path r := by
  have h : NoCalls path := fun q P n a h1 h2 h3 => hp ((call_infix h1 h2 h3).subset (by simp))
  exact C74_exact (noCalls_unpretty h) (.inr h) r

theorem infix_unpretty {path : Bytes} (hp : ¬ b!"@pretty" <:+: path) : Unpretty path :=
  fun q P n a h1 h2 h3 e => hp (by have := call_infix h1 h2 h3; rwa [e] at this)

/-- C74: without `@pretty` in the path: in every text that does not begin with an open string. -/
theorem C74_mods {doc path : Bytes} (hp : ¬ b!"@pretty" <:+: path) (hd : Fair doc) (r : Bytes) :
    (∃ v, get doc path = .ok v ∧ v.json = r) ↔ Yields doc path r :=
  C74_exact (infix_unpretty hp) (.inl hd) r

/-- C74: the text that comes out is told for every text at all, those that begin with an open
string included. -/
theorem C74_text {path : Bytes} (hp : Unpretty path) (doc r : Bytes) : (∃ v, get doc path = .ok v ∧ v.json = r) ↔ Brings doc path r := by
  constructor
  · rintro ⟨v, h1, h2⟩
    obtain ⟨r', h⟩ := bringsAt_total _ path (Nat.lt_succ_self _) hp doc
    obtain ⟨v', h3, h4⟩ := bringsAt_ok _ _ _ _ h
    rw [h1] at h3
    cases h3
    rw [← h2, h4]
    exact ⟨_, h⟩
  · rintro ⟨n, h⟩
    exact bringsAt_ok n _ _ _ h

/-- C74: what the rules for JSON texts give (C71) is what the rules for any text give. -/
theorem C74_json {doc path r : Bytes} (hp : Unpretty path) (hd : Fair doc ∨ NoCalls path) (h : Obtains doc path r) : Yields doc path r := by
  obtain ⟨v, h1, h2, _⟩ := C71_sound h
  exact (C74_exact hp hd r).1 ⟨v, h1, h2⟩

/-! ### Concrete cases -/

/-- An object that is not closed, a key without a colon, a number that is none. -/
example : Parsed b!" {\"a\" 1-e \"b\":[1,2" b!"{\"a\" 1-e \"b\":[1,2" ∧ Parsed b!" 1-e,x" b!"1-e" ∧ Parsed b!" x" [] :=
  ⟨(C73_parse _ _).1 (ok_of_json (by decide +kernel)), (C73_parse _ _).1 (ok_of_json (by decide +kernel)),
   (C73_parse _ _).1 (ok_of_json (by decide +kernel))⟩

/-- An array that is closed by nothing, without commas. -/
example : ∃ v vals, parse b!"[1 tru[2}:\"x\",?" = .ok v ∧ v.kind = .array ∧ v.array = .ok vals ∧
    vals.map Value.json = [b!"1", b!"tru[", b!"2"] :=
  ⟨_, _, rfl, by decide +kernel, rfl, by decide +kernel⟩

/-- Modifiers on such texts. -/
example : Turns b!"reverse" [] b!"[1 2,[3" b!"[2,1]" ∧ Turns b!"flatten" b!"{\"deep\":true" b!"[[1 [2}] 3" b!"[1,2,3]" ∧
    Turns b!"ugly" [] b!"{ \"a b" b!"{\"a b" :=
  ⟨(C73_modifier (by decide) _ _ _).1 (by decide +kernel), (C73_modifier (by decide) _ _ _).1 (by decide +kernel),
   (C73_modifier (by decide) _ _ _).1 (by decide +kernel)⟩

/-- Searching goes on in what is not closed; where an array has no such index, the keys in it count. -/
example : Yields b!"{\"a\" 1 \"b\":[1,{\"c\":tr" b!"b.0" b!"1" ∧ Yields b!"{\"a\":[1,\"a\":{\"b\":6}]}" b!"a.b" b!"6" ∧
    Yields b!"{\"a\":[{\"a\":[3,4" b!"a.a" [] ∧ Yields b!"{\"x\":[1 2}:" b!"{n:x.#,y:x.1}" b!"{\"n\":2,\"y\":2}" :=
  ⟨(C74_plain (by decide) _ _).1 (ok_of_json (by decide +kernel)), (C74_plain (by decide) _ _).1 (ok_of_json (by decide +kernel)),
   (C74_plain (by decide) _ _).1 (ok_of_json (by decide +kernel)), (C74_plain (by decide) _ _).1 (ok_of_json (by decide +kernel))⟩

/-- With modifiers. -/
example : Yields b!"[[1,2],3" b!"@reverse|1.@reverse.0" b!"2" :=
  (C74_mods (by decide) (fair_cont (by decide)) _).1 (ok_of_json (by decide +kernel))

/-- C74: behind a modifier, an open string at the beginning of the text makes a value that does
not exist but is of the kind of strings; so it is left out. -/
theorem C74_open_string : ∃ v, get b!"\"abc" b!"@this" = .ok v ∧ v.json = [] ∧ v.kind ≠ kindOf [] ∧ v.exists = false :=
  ⟨_, rfl, by decide +kernel, by decide +kernel, by decide +kernel⟩

/-- An open string, under modifiers and in a multipath. -/
example : Brings b!"\"abc" b!"@this" [] ∧ Brings b!" \"a b" b!"[@ugly,{x:@this},@reverse.#]|@flatten.0" b!"{}" :=
  ⟨(C74_text (infix_unpretty (by decide)) _ _).1 (ok_of_json (by decide +kernel)),
   (C74_text (infix_unpretty (by decide)) _ _).1 (ok_of_json (by decide +kernel))⟩

end Gjson
