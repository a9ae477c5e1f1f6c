import Verif.Basic
/-
Words that occur in a text in a given order.
-/
namespace Gjson.Spec

/-- The text contains, one after the other, a word of each of the sets. -/
def InOrder : List (List Bytes) → Bytes → Prop
  | [], _ => True
  | ws :: rest, s => ∃ a w b, w ∈ ws ∧ s = a ++ (w ++ b) ∧ InOrder rest b

/-- The path has a `@pretty` with an argument in which a member `prefix` may be: the
word in quotes, or a backslash (which may belong to an escape in that word). -/
def AsksPrefix (path : Bytes) : Prop := InOrder [[b!"@pretty:"], [b!"\"prefix\"", b!"\\"]] path

/-- The path has such a `@pretty` behind `#(`, and behind that a `~` (or a backslash). -/
def PrefixInQuery (path : Bytes) : Prop :=
  InOrder [[b!"#("], [b!"@pretty:"], [b!"\"prefix\"", b!"\\"], [b!"~", b!"\\"]] path

theorem InOrder.mono : ∀ {ws : List (List Bytes)} {s t : Bytes}, s <:+: t → InOrder ws s → InOrder ws t
  | [], _, _, _, _ => trivial
  | _ :: _, _, _, ⟨x, y, h⟩, ⟨a, w, b, h1, h2, h3⟩ => by
    subst h2
    refine ⟨x ++ a, w, b ++ y, h1, by rw [← h]; simp, h3.mono (List.prefix_append _ _).isInfix⟩

theorem InOrder.append : ∀ {ws us : List (List Bytes)} {s t : Bytes}, InOrder ws s → InOrder us t → InOrder (ws ++ us) (s ++ t)
  | [], _, s, t, _, h => h.mono (List.suffix_append s t).isInfix
  | _ :: _, _, _, t, ⟨a, w, b, h1, h2, h3⟩, h => by
    subst h2
    exact ⟨a, w, b ++ t, h1, by simp, h3.append h⟩

theorem InOrder.word {ws : List (List Bytes)} {l : List Bytes} {s : Bytes} (hl : l ∈ ws) (h : InOrder ws s) :
    ∃ w ∈ l, w <:+: s := by
  induction ws generalizing s with
  | nil => simp at hl
  | cons k ws ih =>
    obtain ⟨a, w, b, h1, h2, h3⟩ := h
    subst h2
    rcases List.mem_cons.1 hl with rfl | hl
    · exact ⟨w, h1, a, b, by simp⟩
    · obtain ⟨u, hu, hu2⟩ := ih hl h3
      exact ⟨u, hu, hu2.trans ⟨a ++ w, [], by simp⟩⟩

theorem InOrder.init : ∀ {ws us : List (List Bytes)} {s : Bytes}, InOrder (ws ++ us) s → InOrder ws s
  | [], _, _, _ => trivial
  | _ :: _, _, _, ⟨a, w, b, h1, h2, h3⟩ => ⟨a, w, b, h1, h2, h3.init⟩

theorem InOrder.iff {ws : List Bytes} {rest : List (List Bytes)} {s : Bytes} :
    InOrder (ws :: rest) s ↔ ∃ n ∈ List.range (s.length + 1), ∃ w ∈ ws, w <+: s.drop n ∧ InOrder rest ((s.drop n).drop w.length) := by
  constructor
  · rintro ⟨a, w, b, h1, rfl, h2⟩
    refine ⟨a.length, by simp; omega, w, h1, ?_⟩
    rw [List.drop_left, List.drop_left]
    exact ⟨List.prefix_append _ _, h2⟩
  · rintro ⟨n, _, w, h1, ⟨b, hb⟩, h2⟩
    rw [← hb, List.drop_left] at h2
    exact ⟨s.take n, w, b, h1, by rw [hb, List.take_append_drop], h2⟩

/-- Whether words occur in order can be computed. -/
def InOrder.dec : ∀ (ws : List (List Bytes)) (s : Bytes), Decidable (InOrder ws s)
  | [], _ => isTrue trivial
  | _ :: rest, _ => have := InOrder.dec rest; decidable_of_iff _ InOrder.iff.symm

instance (ws : List (List Bytes)) (s : Bytes) : Decidable (InOrder ws s) := InOrder.dec ws s

instance (path : Bytes) : Decidable (AsksPrefix path) := by unfold AsksPrefix; infer_instance

instance (path : Bytes) : Decidable (PrefixInQuery path) := by unfold PrefixInQuery; infer_instance

theorem AsksPrefix.mono {p q : Bytes} (h : p <:+: q) (hb : AsksPrefix p) : AsksPrefix q := InOrder.mono h hb

theorem PrefixInQuery.mono {p q : Bytes} (h : p <:+: q) (hb : PrefixInQuery p) : PrefixInQuery q := InOrder.mono h hb

theorem PrefixInQuery.asks {p : Bytes} (h : PrefixInQuery p) : AsksPrefix p := by
  obtain ⟨a, w, b, _, rfl, h⟩ := h
  exact InOrder.mono ⟨a ++ w, [], by simp⟩
    (InOrder.init (ws := [[b!"@pretty:"], [b!"\"prefix\"", b!"\\"]]) (us := [[b!"~", b!"\\"]]) h)

theorem AsksPrefix.pretty {p : Bytes} (h : AsksPrefix p) : b!"@pretty:" <:+: p := by
  obtain ⟨w, hw, h⟩ := h.word (l := [b!"@pretty:"]) (by simp)
  simp at hw; rwa [hw] at h

end Gjson.Spec
