import Verif.Lemmas.Peer
import Verif.Props.Path
/-
C49: whitespace between the tokens of a text does not matter for what a path finds.
-/
namespace Gjson
open Spec

/-- Values that differ at most in the whitespace between the tokens of their texts:
both exist or both do not, they have the same kind and convert to the same numbers and
truth value; no accessor tells scalars apart. -/
structure SpacedAlike (v v' : Value) : Prop where
  «exists» : v.exists = v'.exists
  kind : v.kind = v'.kind
  tokens : tokens v.json = tokens v'.json
  i64 : v.i64 = v'.i64
  u64 : v.u64 = v'.u64
  f64 : v.f64 = v'.f64
  bool : v.bool = v'.bool
  scalar : v.kind ≠ .object → v.kind ≠ .array → SameValue v v'

theorem spaced_of_same {v v' : Value} (h : SameValue v v') : SpacedAlike v v' := by
  refine ⟨?_, h.kind, by rw [h.json], h.i64, h.u64, h.f64, h.bool, fun _ _ => h⟩
  have e : ∀ v : Value, v.exists = decide (v.json ≠ []) := by
    intro v
    have := exists_json (v := v)
    cases hv : v.exists <;> simp_all
  rw [e, e, h.json]

theorem bool_cont {v : Value} (h : kindOf v.json = .object ∨ kindOf v.json = .array) : v.bool = v.i64 >>= fun x => .ok (decide (x ≠ 0)) := by
  have hy : ∀ y, y ∈ trueTexts ++ falseTexts → v.json ≠ y := by
    rintro y hy rfl
    exact truthText_kind (List.mem_append.1 hy) h
  have t : ∀ y, y ∈ trueTexts ++ falseTexts → (v.json = y) = False := fun y h => eq_false (hy y h)
  unfold Value.bool
  simp only [t _ (show b!"1" ∈ _ by decide), t _ (show b!"true" ∈ _ by decide), t _ (show b!"0" ∈ _ by decide),
    t _ (show b!"false" ∈ _ by decide), t _ (show b!"\"t\"" ∈ _ by decide), t _ (show b!"\"1\"" ∈ _ by decide),
    t _ (show b!"\"T\"" ∈ _ by decide), t _ (show b!"\"f\"" ∈ _ by decide), t _ (show b!"\"0\"" ∈ _ by decide),
    t _ (show b!"\"F\"" ∈ _ by decide), t _ (show b!"\"true\"" ∈ _ by decide), t _ (show b!"\"TRUE\"" ∈ _ by decide),
    t _ (show b!"\"True\"" ∈ _ by decide), t _ (show b!"\"false\"" ∈ _ by decide), t _ (show b!"\"FALSE\"" ∈ _ by decide),
    t _ (show b!"\"False\"" ∈ _ by decide), or_self, if_false]

theorem spaced_of_peer {doc path doc' path' r r' : Bytes} (h : Means doc path r) (h' : Means doc' path' r') (hr : PeerVal r r') :
    ∃ v v', get doc path = .ok v ∧ get doc' path' = .ok v' ∧ SpacedAlike v v' := by
  obtain ⟨v, h1, h2, h3, h4, h5⟩ := C48_means h
  obtain ⟨v', h1', h2', h3', h4', h5'⟩ := C48_means h'
  refine ⟨v, v', h1, h1', ?_⟩
  have ht := peerVal_tokens hr
  rcases hr with ⟨e, e'⟩ | ⟨u, u', w, w', e, e', hu, hw, hw', hc⟩
  · exact spaced_of_same ((h4 e).trans (h4' e').symm)
  · by_cases hcont : IsCont u
    · have l1 : Lead r := .inr ⟨u, w, e, hu.left, hw, hcont⟩
      have l2 : Lead r' := .inr ⟨u', w', e', hu.right, hw', (peer_cont hu).1 hcont⟩
      have k1 : v.kind = kindOf u := by rw [(h5 l1).2.1, e, kindOf_append (isValue_ne_nil hu.left)]
      have k2 : v'.kind = kindOf u := by rw [(h5' l2).2.1, e', kindOf_append (isValue_ne_nil hu.right), peer_kind hu]
      have ex : v.exists = v'.exists := by
        rw [h3.2 l1.ne_nil, h3'.2 l2.ne_nil]
      refine ⟨ex, k1.trans k2.symm, by rw [h2, h2', ht], ?_, ?_, ?_, ?_, fun g1 g2 => ?_⟩
      · unfold Value.i64; rw [k1, k2]; rcases hcont with h | h <;> rw [h]
      · unfold Value.u64; rw [k1, k2]; rcases hcont with h | h <;> rw [h]
      · unfold Value.f64; rw [k1, k2]; rcases hcont with h | h <;> rw [h]
      · have i0 : ∀ x : Value, x.kind = kindOf u → x.i64 = .ok 0 := by
          intro x hx
          unfold Value.i64
          rw [hx]
          rcases hcont with h | h <;> rw [h]
        rw [bool_cont (by rw [h2, e, kindOf_append (isValue_ne_nil hu.left)]; exact hcont), i0 v k1,
          bool_cont (by rw [h2', e', kindOf_append (isValue_ne_nil hu.right)]; exact (peer_cont hu).1 hcont), i0 v' k2]
      · rw [k1] at g1 g2
        rcases hcont with h | h
        · exact absurd h g1
        · exact absurd h g2
    · obtain ⟨rfl, rfl⟩ := hc.resolve_right hcont
      have eu := peer_leaf hu hcont
      subst eu
      rw [List.append_nil] at e e'
      subst e e'
      have hl : Lead r' := .inl hu.left
      obtain ⟨_, _, x, p, q⟩ := h5 hl
      obtain ⟨_, _, x', p', q'⟩ := h5' hl
      rw [p] at p'
      cases p'
      exact spaced_of_same (q.trans q'.symm)

/-- C49: the same path in two JSON texts with the same tokens. -/
theorem C49_space {t t' path : Bytes} (h : JsonText t) (h' : JsonText t') (e : tokens t = tokens t') (hp : Route path) :
    ∃ v v', get t path = .ok v ∧ get t' path = .ok v' ∧ SpacedAlike v v' := by
  obtain ⟨u, u', h1, h2, h3⟩ := peer_of_tokens h h' e
  obtain ⟨r, r', g1, g2, g3⟩ := route_peer hp t t' (.inr ⟨u, u', h1, h2, h3⟩)
  exact spaced_of_peer g1 g2 g3

/-- C49: JSON Lines with the same tokens on each line. -/
theorem C49_lines {t t' path : Bytes} {vs vs' : List Bytes} (h : JsonLines t vs) (h' : JsonLines t' vs')
    (e : vs.map tokens = vs'.map tokens) (hp : Route path) (hs : ∀ c ∈ path.head?, c ∉ b!"@{[") :
    ∃ v v', get t (b!".." ++ path) = .ok v ∧ get t' (b!".." ++ path) = .ok v' ∧ SpacedAlike v v' := by
  have hval : ∀ {t vs}, JsonLines t vs → ∀ v ∈ vs, IsValue v := by
    intro t vs h
    induction h with
    | nil => simp
    | last _ h => simpa using h
    | cons _ h _ _ ih => simpa using ⟨h, ih⟩
  have key : ∀ {vs vs' : List Bytes}, (∀ v ∈ vs, IsValue v) → (∀ v ∈ vs', IsValue v) → vs.map tokens = vs'.map tokens → Aligned Peer vs vs' := by
    intro vs
    induction vs with
    | nil => intro vs' _ _ e; rw [List.map_eq_nil_iff.1 e.symm]; exact .nil
    | cons v vs ih =>
      intro vs' h h' e
      cases vs' with
      | nil => simp at e
      | cons v' vs' =>
        simp only [List.map_cons, List.cons.injEq] at e
        refine .cons ?_ (ih (fun x hx => h x (List.mem_cons_of_mem _ hx)) (fun x hx => h' x (List.mem_cons_of_mem _ hx)) e.2)
        obtain ⟨d, hd⟩ := denotes_of_value (h v (by simp))
        obtain ⟨d', hd'⟩ := denotes_of_value (h' v' (by simp))
        have e1 := e.1
        rw [tokens_padded (padded_self v) hd, tokens_padded (padded_self v') hd'] at e1
        have h1 := denotes_bare hd
        rw [e1] at h1
        have := denotes_fun h1 (denotes_bare hd')
        subst this
        exact ⟨d, hd, hd'⟩
  obtain ⟨r, r', g1, g2, g3⟩ := lines_peer hp hs h h' (key (hval h) (hval h') e)
  exact spaced_of_peer g1 g2 g3

/-- C49: what a path finds in a text, it finds in the text without whitespace. -/
theorem C49_ugly {t path : Bytes} (h : JsonText t) (hp : Route path) :
    ∃ u v v', ugly t = .ok u ∧ get t path = .ok v ∧ get u path = .ok v' ∧ SpacedAlike v v' := by
  obtain ⟨u, h1, _, h2, h3, _⟩ := C30_tokens h
  obtain ⟨v, v', h4⟩ := C49_space h ((C01_valid_iff_rfc8259 u).1 h3) h2.symm hp
  exact ⟨u, v, v', h1, h4⟩

/-- C49: and in the text laid out by `pretty`, unless keys are sorted. -/
theorem C49_pretty {t path : Bytes} (h : JsonText t) (hp : Route path) {o : PrettyOptions} (hpfx : Ws o.pfx) (hind : Ws o.indent)
    (hsort : o.sortKeys = false) :
    ∃ u v v', prettyOptions t o = .ok u ∧ get t path = .ok v ∧ get u path = .ok v' ∧ SpacedAlike v v' := by
  obtain ⟨u, _, h1, h2, h3, _⟩ := C31_ugly h hpfx hind hsort
  obtain ⟨v, v', h4⟩ := C49_space h ((C01_valid_iff_rfc8259 u).1 h3) h2.symm hp
  exact ⟨u, v, v', h1, h4⟩

/-- Two texts with the same tokens and a path with a query, a multipath and a modifier. -/
example : JsonText b!"{\"a\":[{\"k\":2},{\"k\":3,\"c\":[5,6]}]}" ∧ JsonText b!" { \"a\": [{\"k\" :2},\n{\"k\":3,\"c\":[5 , 6] } ]}" ∧
    tokens b!"{\"a\":[{\"k\":2},{\"k\":3,\"c\":[5,6]}]}" = tokens b!" { \"a\": [{\"k\" :2},\n{\"k\":3,\"c\":[5 , 6] } ]}" ∧
    Route b!"a.#( k >= 3)#.{k,n:c.#}|@reverse|0" := by
  have j1 : JsonText b!"{\"a\":[{\"k\":2},{\"k\":3,\"c\":[5,6]}]}" := (C01_valid_iff_rfc8259 _).1 (by decide +kernel)
  have j2 : JsonText b!" { \"a\": [{\"k\" :2},\n{\"k\":3,\"c\":[5 , 6] } ]}" := (C01_valid_iff_rfc8259 _).1 (by decide +kernel)
  refine ⟨j1, j2, ?_, sampleRoute⟩
  obtain ⟨o1, a1, _, c1, _⟩ := C30_tokens j1
  obtain ⟨o2, a2, _, c2, _⟩ := C30_tokens j2
  have : ugly b!"{\"a\":[{\"k\":2},{\"k\":3,\"c\":[5,6]}]}" = ugly b!" { \"a\": [{\"k\" :2},\n{\"k\":3,\"c\":[5 , 6] } ]}" := by decide +kernel
  rw [a1, a2] at this
  cases this
  rw [← c1, c2]

/-- C49 leaves out `@flatten` without `deep`: there a space inside an empty array makes
a difference. -/
theorem C49_flatten : valid b!"[[],1]" = .ok true ∧ valid b!"[[ ],1]" = .ok true ∧ ugly b!"[[],1]" = ugly b!"[[ ],1]" ∧
    (get b!"[[],1]" b!"@flatten" >>= fun v => .ok v.json) = .ok b!"[1]" ∧
    (get b!"[[ ],1]" b!"@flatten" >>= fun v => .ok v.json) = .ok b!"[ ,1]" := by decide +kernel

end Gjson
