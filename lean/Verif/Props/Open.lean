import Verif.Lemmas.Open
import Verif.Props.Search
/-
C56: a path of keys and indexes is followed through the text only as far as it leads.
`Spec.Reached` (`Verif/SpecOpen.lean`) says of a text that may be cut off, or go on
with something that is not JSON, what a path leads to in its beginning.
-/
namespace Gjson
open Spec

/-- C56: what a path leads to in the beginning of a text is found, whatever follows. -/
theorem C56_reached {t r w : Bytes} {ks : List Bytes} (h : Reached Hits t ks r) (hk : ∀ k ∈ ks, Selector k) (hne : ks ≠ [])
    (hw : Ws w) : ∃ u, get (w ++ t) (dotPath ks) = .ok u ∧ u.json = r ∧ u.kind = kindOf r ∧ SameAsText u r := by
  obtain ⟨u, h1, h2⟩ := reached_get h hne (fun k hx => Selector.ord (hk k hx)) hitOk_code hw
  exact ⟨u, h1, h2.1, h2.2.1, h2⟩

/-- C56 for components without special characters: they name keys. -/
theorem C56_plain {t r w : Bytes} {ks : List Bytes} (h : Reached (fun k kl => KeyIs kl k) t ks r) (hk : ∀ k ∈ ks, PlainKey k ∧ k ≠ [])
    (hne : ks ≠ []) (hw : Ws w) : ∃ u, get (w ++ t) (dotPath ks) = .ok u ∧ u.json = r ∧ u.kind = kindOf r ∧ SameAsText u r := by
  obtain ⟨u, h1, h2⟩ := reached_get h hne (fun k hx => Selector.ord (PlainKey.selector (hk k hx).1 (hk k hx).2)) (hitOk_plain fun k hx => (hk k hx).1) hw
  exact ⟨u, h1, h2.1, h2.2.1, h2⟩

/-- Two members deep in a text that goes on with other than JSON. -/
example : Reached (fun k kl => KeyIs kl k) b!"{\"b\":[1], \"x\":{\"\\u0061\" : true }]#" [b!"x", b!"a"] b!"true" := by
  have key : ∀ {k kl : Bytes}, keyIsB k kl = true → KeyIs kl k := fun h => keyIsB_iff.1 h
  have nokey : ∀ {k kl : Bytes}, keyIsB k kl = false → ¬ KeyIs kl k := fun h g => by rw [keyIsB_iff.2 g] at h; cases h
  have lit : ∀ {kl : Bytes}, valid kl = .ok true → trimmed kl = true → kindOf kl = .string → StrLit kl := fun h1 h2 h3 => kind_str (value_of_valid h1 h2) h3
  have h0 : Reached (fun k kl => KeyIs kl k) b!"true }]#" [] b!"true" :=
    .here (v := b!"true") (q := b!" }]#") .true (fun h => by simp [kindOf] at h)
  have h1 : Reached (fun k kl => KeyIs kl k) b!"{\"\\u0061\" : true }]#" [b!"a"] b!"true" :=
    .key (kl := b!"\"\\u0061\"") (w1 := []) (w2 := b!" ") (w3 := b!" ") (ms := []) (by simp) (by simp) (by simp) (by decide) (lit (by decide +kernel) (by decide) (by decide))
      (by decide) (by decide) (key (by decide +kernel)) h0
  exact .key (kl := b!"\"x\"") (w1 := b!" ") (w2 := []) (w3 := []) (ms := [⟨[], b!"\"b\"", [], [], b!"[1]", []⟩])
    (by simp only [List.mem_singleton, forall_eq]; exact ⟨by decide, lit (by decide +kernel) (by decide) (by decide), by decide, by decide, by decide⟩)
    (by simp only [List.mem_singleton, forall_eq]; exact value_of_valid (by decide +kernel) (by decide)) (by simp only [List.mem_singleton, forall_eq]; exact nokey (by decide +kernel))
    (by decide) (lit (by decide +kernel) (by decide) (by decide)) (by decide) (by decide) (key (by decide +kernel)) h1

/-- C56: the end `b` of a document after what the path leads to (`u`) may be replaced
by any text `q`. With indexes in the path `u` is the element of the first index, which
must be there in full. -/
theorem C56_cut {v r : Bytes} {ks : List Bytes} (hv : IsValue v) (h : Leads Hits v ks r) (hk : ∀ k ∈ ks, Selector k) (hne : ks ≠ []) :
    ∃ a u b, v = a ++ (u ++ b) ∧ IsValue u ∧ Inside u r ∧ ((∀ k ∈ ks, ∀ n, ¬ IndexText k n) → u = r) ∧
      (∀ s, EndsHere u (b ++ s)) ∧
      ∀ w q, Ws w → EndsHere u q → ∃ x, get (w ++ (a ++ (u ++ q))) (dotPath ks) = .ok x ∧ x.json = r ∧ x.kind = kindOf r ∧ SameAsText x r := by
  obtain ⟨a, u, b, h1, h2, h3, h4, h5, h6⟩ := leads_cut h hv
  exact ⟨a, u, b, h1, h2, h3, h4, h5 hne, fun w q hw hq => C56_reached (h6 q hq) hk hne hw⟩

/-- C56: a JSON document followed by anything is searched like the document, if the
path leads to a value. -/
theorem C56_after {v r w : Bytes} {ks : List Bytes} (q : Bytes) (hv : IsValue v) (h : Leads Hits v ks r)
    (hk : ∀ k ∈ ks, Selector k) (hne : ks ≠ []) (hw : Ws w) :
    ∃ x, get (w ++ (v ++ q)) (dotPath ks) = .ok x ∧ x.json = r ∧ x.kind = kindOf r ∧ SameAsText x r := by
  obtain ⟨a, u, b, h1, _, _, _, h5, h6⟩ := C56_cut hv h hk hne
  have := h6 w (b ++ q) hw (h5 q)
  rw [h1]
  simpa using this

/-- C56: an element must be there in full before the path goes on inside it; a member
need not. -/
theorem C56_open_element :
    (∃ v, get b!"{\"x\":{\"a\":1," b!"x.a" = .ok v ∧ v.json = b!"1") ∧
    (∃ v, get b!"[{\"a\":1," b!"0.a" = .ok v ∧ v.exists = false) ∧
    (∃ v, get b!"[{\"a\":1}," b!"0.a" = .ok v ∧ v.json = b!"1") :=
  ⟨⟨_, rfl, by decide +kernel⟩, ⟨_, rfl, by decide +kernel⟩, ⟨_, rfl, by decide +kernel⟩⟩

/-- C56: a number is read on while its bytes could belong to a number; all else may
follow it. -/
theorem C56_number_goes_on :
    (∃ v, get b!"{\"a\":1*" b!"a" = .ok v ∧ v.json = b!"1") ∧
    (∃ v, get b!"{\"a\":1-+" b!"a" = .ok v ∧ v.json = b!"1-+") ∧
    (∃ v, get b!"{\"a\":\"1\"-+" b!"a" = .ok v ∧ v.json = b!"\"1\"") :=
  ⟨⟨_, rfl, by decide +kernel⟩, ⟨_, rfl, by decide +kernel⟩, ⟨_, rfl, by decide +kernel⟩⟩

end Gjson
