import Verif.Lemmas.Edit
import Verif.Props.Prefix
import Verif.Props.Valid
/-
C61: a value put in the place of another is what its path finds, and nothing else
changes. `Spec.Site` and `Spec.Apart` (`Verif/SpecEdit.lean`) say what a place is and
when two paths part; both know nothing of the code.
-/
namespace Gjson
open Spec

/-- C61, the places: wherever plain components lead in a JSON text, the value has a
place there; the text around a place is that of the document, and the components
lead to what stands in it. -/
theorem C61_place {t v : Bytes} {ks : List Bytes} :
    (Resolves KeyIs t ks v → ∃ a b, Site KeyIs t ks a v b) ∧
    (∀ a b, Site KeyIs t ks a v b → t = a ++ (v ++ b) ∧ Resolves KeyIs t ks v) :=
  ⟨fun h => resolves_site h, fun _ _ h => ⟨site_text h, site_resolves h⟩⟩

/-- C61, the text: with any JSON value in that place the document is a JSON text, and
the place is that of the new value. -/
theorem C61_text {t a v b w1 w2 new : Bytes} {ks : List Bytes} (h : Site KeyIs t ks a v b) (hw1 : Ws w1) (hw2 : Ws w2)
    (hn : IsValue new) :
    Site KeyIs (a ++ (new ++ b)) ks a new b ∧ valid (w1 ++ (a ++ (new ++ b) ++ w2)) = .ok true := by
  obtain ⟨h1, h2⟩ := site_put h hn
  exact ⟨h1, (C01_valid_iff_rfc8259 _).2 ⟨w1, _, w2, rfl, hw1, hw2, h2⟩⟩

/-- What the components lead to, with anything after a pipe. -/
theorem get_resolved {t r doc : Bytes} {ps : List Bytes} (hr : Resolves KeyIs t ps r) (hd : Padded t doc)
    (hp : ∀ k ∈ ps, PlainKey k ∧ k ≠ []) (hne : ps ≠ []) (rest : Bytes) :
    SameRes (get doc (dotPath ps)) (parse r) ∧ SameRes (get doc (dotPath ps ++ c! '|' :: rest)) (get r rest) := by
  obtain ⟨w, h1, h2, _, _, _, u, h4, h5⟩ := C09_resolves hr hd hp hne
  refine ⟨by rw [h1, h4]; exact .ok h5, ?_⟩
  have := C12_pipe_text doc rest (fun k hk => PlainKey.selector (hp k hk).1 (hp k hk).2) hne
  rw [h1, ok_bind, h2] at this
  exact this

/-- C61, the path of the place: it finds the new value, and a path after a pipe is
looked up in the new value, as if that were the document. -/
theorem C61_set {t a v b w1 w2 new : Bytes} {ks : List Bytes} (h : Site KeyIs t ks a v b) (hw1 : Ws w1) (hw2 : Ws w2)
    (hn : IsValue new) (hp : ∀ k ∈ ks, PlainKey k ∧ k ≠ []) (hne : ks ≠ []) (rest : Bytes) :
    SameRes (get (w1 ++ (a ++ (new ++ b) ++ w2)) (dotPath ks)) (parse new) ∧
    SameRes (get (w1 ++ (a ++ (new ++ b) ++ w2)) (dotPath ks ++ c! '|' :: rest)) (get new rest) :=
  get_resolved (site_resolves (site_put h hn).1) ⟨w1, w2, hw1, hw2, rfl⟩ hp hne rest

/-- C61, all other paths: plain components that part from those of the place, and lead
to something, find the same as before, also with a path after a pipe. -/
theorem C61_others {t a v b w1 w2 new r : Bytes} {ks ps : List Bytes} (h : Site KeyIs t ks a v b) (hw1 : Ws w1) (hw2 : Ws w2)
    (hn : IsValue new) (ha : Apart ks ps) (hr : Resolves KeyIs t ps r) (hp : ∀ k ∈ ps, PlainKey k ∧ k ≠ []) (hne : ps ≠ [])
    (rest : Bytes) :
    SameRes (get (w1 ++ (a ++ (new ++ b) ++ w2)) (dotPath ps)) (get (w1 ++ (t ++ w2)) (dotPath ps)) ∧
    SameRes (get (w1 ++ (a ++ (new ++ b) ++ w2)) (dotPath ps ++ c! '|' :: rest)) (get (w1 ++ (t ++ w2)) (dotPath ps ++ c! '|' :: rest)) := by
  have h1 := get_resolved (site_frame (D := KeyIs) (fun _ _ _ => keyIs_fun) h hn ha hr) ⟨w1, w2, hw1, hw2, rfl⟩ hp hne rest
  have h2 := get_resolved hr ⟨w1, w2, hw1, hw2, rfl⟩ hp hne rest
  exact ⟨h1.1.trans h2.1.symm, h1.2.trans h2.2.symm⟩

/-- C61 in one piece: whatever `get` finds with plain components, the document can be
cut around it; with another value there, the path finds that value, and the paths
that part from it find what they found. -/
theorem C61_edit {t v doc : Bytes} {ks : List Bytes} (hr : Resolves KeyIs t ks v) (hd : Padded t doc)
    (hp : ∀ k ∈ ks, PlainKey k ∧ k ≠ []) (hne : ks ≠ []) :
    ∃ a b, doc = a ++ (v ++ b) ∧ SameRes (get doc (dotPath ks)) (parse v) ∧ ∀ new, IsValue new →
      valid (a ++ (new ++ b)) = .ok true ∧
      SameRes (get (a ++ (new ++ b)) (dotPath ks)) (parse new) ∧
      ∀ ps r, Apart ks ps → Resolves KeyIs t ps r → (∀ k ∈ ps, PlainKey k ∧ k ≠ []) → 
        SameRes (get (a ++ (new ++ b)) (dotPath ps)) (get doc (dotPath ps)) := by
  obtain ⟨w1, w2, hw1, hw2, rfl⟩ := hd
  obtain ⟨a, b, hs⟩ := resolves_site hr
  have e : ∀ y, (w1 ++ a) ++ (y ++ (b ++ w2)) = w1 ++ (a ++ (y ++ b) ++ w2) := fun y => by simp
  refine ⟨w1 ++ a, b ++ w2, by rw [e, ← site_text hs], (get_resolved hr ⟨w1, w2, hw1, hw2, rfl⟩ hp hne []).1, fun new hn => ?_⟩
  rw [e]
  refine ⟨(C61_text hs hw1 hw2 hn).2, (C61_set hs hw1 hw2 hn hp hne []).1, fun ps r ha h1 h2 => ?_⟩
  have hps : ps ≠ [] := by rintro rfl; cases ks <;> simp [Apart] at ha
  exact (C61_others hs hw1 hw2 hn ha h1 h2 hps []).1

/-- The condition that the other path leads to something is needed: a path that leads
nowhere may find something inside the new value. -/
theorem C61_nowhere : Apart [b!"a", b!"a"] [b!"a", b!"x"] ∧
    (get b!"{\"a\":{\"a\":0}}" b!"a.x" >>= fun v => .ok v.exists) = .ok false ∧
    (get b!"{\"a\":{\"a\":{\"x\":1}}}" b!"a.x" >>= fun v => .ok v.json) = .ok b!"1" := by
  refine ⟨.inl ⟨rfl, .inr ⟨by decide, ?_⟩⟩, by decide +kernel, by decide +kernel⟩
  rintro n ⟨h, _⟩
  obtain ⟨ds, _, h1, _, h2 | h2 | h2⟩ := h
  · subst h2; exact absurd (h1 _ List.mem_cons_self) (by decide)
  · simp at h2
  · simp at h2

theorem membersText_snoc (m : Member) : ∀ ms : List Member, ms ≠ [] → membersText (ms ++ [m]) = membersText ms ++ c! ',' :: m.text
  | [], h => absurd rfl h
  | [x], _ => by simp [membersText]
  | x :: y :: r, _ => by
    have := membersText_snoc m (y :: r) (by simp)
    simp only [List.cons_append] at this ⊢
    rw [membersText, this, membersText]; simp

theorem elemsText_snoc (m : Elem) : ∀ ms : List Elem, ms ≠ [] → elemsText (ms ++ [m]) = elemsText ms ++ c! ',' :: m.text
  | [], h => absurd rfl h
  | [x], _ => by simp [elemsText]
  | x :: y :: r, _ => by
    have := elemsText_snoc m (y :: r) (by simp)
    simp only [List.cons_append] at this ⊢
    rw [elemsText, this, elemsText]; simp

/-- C61, one member more: the text of an object with `,"key":value` in front of the
closing brace is the object with that member added at the end. -/
theorem C61_add_member {body kl x : Bytes} {kvs : List (Bytes × Bytes)} (h : IsObject (c! '{' :: (body ++ [c! '}'])) kvs)
    (hne : kvs ≠ []) (hk : StrLit kl) (hx : IsValue x) :
    IsObject (c! '{' :: (body ++ c! ',' :: (kl ++ c! ':' :: (x ++ [c! '}'])))) (kvs ++ [(kl, x)]) := by
  rcases h with ⟨w, _, _, he⟩ | ⟨ms, hms, h1, h2, h3, rfl⟩
  · exact absurd he hne
  · have e : body = membersText ms := by simpa using h3
    subst e
    refine .inr ⟨ms ++ [⟨[], kl, [], [], x, []⟩], by simp, ?_, ?_, ?_, by simp⟩
    · intro m hm
      rcases List.mem_append.1 hm with hm | hm
      · exact h1 m hm
      · simp at hm; subst hm; exact ⟨Ws.nil, hk, Ws.nil, Ws.nil, Ws.nil⟩
    · intro m hm
      rcases List.mem_append.1 hm with hm | hm
      · exact h2 m hm
      · simp at hm; subst hm; exact hx
    · rw [membersText_snoc _ _ hms]; simp [Member.text]

/-- C61, one element more. -/
theorem C61_add_elem {body x : Bytes} {vs : List Bytes} (h : IsArray (c! '[' :: (body ++ [c! ']'])) vs)
    (hne : vs ≠ []) (hx : IsValue x) : IsArray (c! '[' :: (body ++ c! ',' :: (x ++ [c! ']']))) (vs ++ [x]) := by
  rcases h with ⟨w, _, _, he⟩ | ⟨ms, hms, h1, h2, h3, rfl⟩
  · exact absurd he hne
  · have e : body = elemsText ms := by simpa using h3
    subst e
    refine .inr ⟨ms ++ [⟨[], x, []⟩], by simp, ?_, ?_, ?_, by simp⟩
    · intro m hm
      rcases List.mem_append.1 hm with hm | hm
      · exact h1 m hm
      · simp at hm; subst hm; exact ⟨Ws.nil, Ws.nil⟩
    · intro m hm
      rcases List.mem_append.1 hm with hm | hm
      · exact h2 m hm
      · simp at hm; subst hm; exact hx
    · rw [elemsText_snoc _ _ hms]; simp [Elem.text]

/-- `u` is `t` with members or elements added at the end. -/
def Extends (t u : Bytes) : Prop :=
  (∃ kvs more, IsObject t kvs ∧ IsObject u (kvs ++ more)) ∨ (∃ vs more, IsArray t vs ∧ IsArray u (vs ++ more))

theorem extends_value {t u : Bytes} (h : Extends t u) : IsValue u := by
  rcases h with ⟨_, _, _, h⟩ | ⟨_, _, _, h⟩
  · exact IsObject.isValue h
  · exact IsArray.isValue h

theorem extends_resolves {t u r : Bytes} {ps : List Bytes} (h : Extends t u) (hne : ps ≠ []) (hr : Resolves KeyIs t ps r) :
    Resolves KeyIs u ps r := by
  rcases h with ⟨kvs, more, h1, h2⟩ | ⟨vs, more, h1, h2⟩
  · cases hr with
    | here => exact absurd rfl hne
    | index h => exact absurd ((IsArray.kindOf h).symm.trans (IsObject.kindOf h1)) (by decide)
    | key h3 h4 h5 h6 =>
      have := isObject_unique h1 h3
      subst this
      exact .key (by simpa using h2) h4 h5 h6
  · cases hr with
    | here => exact absurd rfl hne
    | key h => exact absurd ((IsObject.kindOf h).symm.trans (IsArray.kindOf h1)) (by decide)
    | index h3 h4 h5 h6 h7 =>
      have := isArray_unique h1 h3
      subst this
      refine .index h2 h4 h5 ?_ h7
      rw [List.getElem?_append_left (List.getElem?_eq_some_iff.1 h6).1]; exact h6

theorem resolves_after {t v r : Bytes} {ks qs : List Bytes} (h : Resolves KeyIs t ks v) (hr : Resolves KeyIs t (ks ++ qs) r) :
    Resolves KeyIs v qs r := by
  induction h with
  | here => exact hr
  | key h1 h2 h3 _ ih =>
    cases hr with
    | index h => exact absurd ((IsArray.kindOf h).symm.trans (IsObject.kindOf h1)) (by decide)
    | key g1 g2 g3 g4 =>
      have := firstAt_same (D := KeyIs) (fun _ _ _ => keyIs_fun) h3 h2 ⟨_, _, _, isObject_unique h1 g1, g2, g3⟩
      subst this
      exact ih g4
  | index h1 h2 h3 h4 _ ih =>
    cases hr with
    | key h => exact absurd ((IsObject.kindOf h).symm.trans (IsArray.kindOf h1)) (by decide)
    | index g1 g2 g3 g4 g5 =>
      have e1 := isArray_unique h1 g1
      have e2 := indexText_unique h2 g2
      subst e1; subst e2
      rw [h4] at g4; cases g4
      exact ih g5

/-- C61, adding at the end of an object or array anywhere in the document: what lies
inside it stays, for every path below it that leads to something. Paths that part from
it are covered by `C61_others`. -/
theorem C61_add {t a v u b w1 w2 r : Bytes} {ks qs : List Bytes} (h : Site KeyIs t ks a v b) (hu : Extends v u) (hw1 : Ws w1) (hw2 : Ws w2)
    (hq : qs ≠ []) (hr : Resolves KeyIs t (ks ++ qs) r) (hp : ∀ k ∈ ks ++ qs, PlainKey k ∧ k ≠ []) (rest : Bytes) :
    SameRes (get (w1 ++ (a ++ (u ++ b) ++ w2)) (dotPath (ks ++ qs))) (get (w1 ++ (t ++ w2)) (dotPath (ks ++ qs))) ∧
    SameRes (get (w1 ++ (a ++ (u ++ b) ++ w2)) (dotPath (ks ++ qs) ++ c! '|' :: rest))
      (get (w1 ++ (t ++ w2)) (dotPath (ks ++ qs) ++ c! '|' :: rest)) := by
  have hr' := resolves_append (site_resolves (site_put h (extends_value hu)).1) (extends_resolves hu hq (resolves_after (site_resolves h) hr))
  have hne : ks ++ qs ≠ [] := by simp [hq]
  have h1 := get_resolved hr' ⟨w1, w2, hw1, hw2, rfl⟩ hp hne rest
  have h2 := get_resolved hr ⟨w1, w2, hw1, hw2, rfl⟩ hp hne rest
  exact ⟨h1.1.trans h2.1.symm, h1.2.trans h2.2.symm⟩

/-- C61, the added member: when the object has no member with that key, the path with
the key finds the new value. -/
theorem C61_added_member {t a v b w1 w2 body kl k x : Bytes} {ks : List Bytes} {kvs : List (Bytes × Bytes)} (h : Site KeyIs t ks a v b)
    (hv : v = c! '{' :: (body ++ [c! '}'])) (ho : IsObject v kvs) (hne : kvs ≠ []) (hk : StrLit kl) (hx : IsValue x)
    (hno : ∀ m ∈ kvs, ∃ s, KeyIs m.1 s ∧ s ≠ k) (hkk : KeyIs kl k) (hw1 : Ws w1) (hw2 : Ws w2)
    (hp : ∀ j ∈ ks ++ [k], PlainKey j ∧ j ≠ []) :
    SameRes (get (w1 ++ (a ++ (c! '{' :: (body ++ c! ',' :: (kl ++ c! ':' :: (x ++ [c! '}']))) ++ b) ++ w2)) (dotPath (ks ++ [k]))) (parse x) := by
  subst hv
  have hu := C61_add_member ho hne hk hx
  have hr := resolves_append (site_resolves (site_put h (IsObject.isValue hu)).1) (.key hu hno hkk .here)
  exact (get_resolved hr ⟨w1, w2, hw1, hw2, rfl⟩ hp (by simp) []).1

/-- C61, the added element: its index is the number of elements there were. -/
theorem C61_added_elem {t a v b w1 w2 body x : Bytes} {ks vs : List Bytes} (h : Site KeyIs t ks a v b)
    (hv : v = c! '[' :: (body ++ [c! ']'])) (ho : IsArray v vs) (hne : vs ≠ []) (hx : IsValue x) (hlt : vs.length < 2 ^ 63)
    (hw1 : Ws w1) (hw2 : Ws w2) (hp : ∀ k ∈ ks, PlainKey k ∧ k ≠ []) :
    SameRes (get (w1 ++ (a ++ (c! '[' :: (body ++ c! ',' :: (x ++ [c! ']'])) ++ b) ++ w2)) (dotPath (ks ++ [numeral vs.length]))) (parse x) := by
  subst hv
  have hu := C61_add_elem ho hne hx
  have hr := resolves_append (site_resolves (site_put h (IsArray.isValue hu)).1) (.index (v := x) hu (indexText_numeral vs.length) hlt (by simp) .here)
  refine (get_resolved hr ⟨w1, w2, hw1, hw2, rfl⟩ ?_ (by simp) []).1
  intro k hk
  rcases List.mem_append.1 hk with hk | hk
  · exact hp k hk
  · simp at hk; subst hk; exact plainKey_numeral _

theorem firstAt_resolves {v u p r : Bytes} {qs : List Bytes} {kvs kvs' : List (Bytes × Bytes)} (ho : IsObject v kvs) (hu : IsObject u kvs')
    (hf : ∀ x, FirstAt KeyIs kvs p x → FirstAt KeyIs kvs' p x) (hr : Resolves KeyIs v (p :: qs) r) : Resolves KeyIs u (p :: qs) r := by
  cases hr with
  | index h => exact absurd ((IsArray.kindOf h).symm.trans (IsObject.kindOf ho)) (by decide)
  | key h3 h4 h5 h6 =>
    obtain ⟨b, kl, a, rfl, g2, g3⟩ := hf _ ⟨_, _, _, isObject_unique ho h3, h4, h5⟩
    exact .key hu g2 g3 h6

/-- C61, taking a member out of an object anywhere in the document, or putting one in
between, at any place among the members: paths through the other keys find what they
found. `u` is any text of the object without the member (in the first part) and with
it (in the second). -/
theorem C61_remove_member {t a v u b w1 w2 r km k x p : Bytes} {ks qs : List Bytes} {B A : List (Bytes × Bytes)} (h : Site KeyIs t ks a v b)
    (hvu : (IsObject v (B ++ (km, x) :: A) ∧ IsObject u (B ++ A)) ∨ (IsObject v (B ++ A) ∧ IsObject u (B ++ (km, x) :: A)))
    (hk : KeyIs km k) (hne : k ≠ p) (hw1 : Ws w1) (hw2 : Ws w2) (hr : Resolves KeyIs t (ks ++ p :: qs) r)
    (hp : ∀ j ∈ ks ++ p :: qs, PlainKey j ∧ j ≠ []) (rest : Bytes) :
    SameRes (get (w1 ++ (a ++ (u ++ b) ++ w2)) (dotPath (ks ++ p :: qs))) (get (w1 ++ (t ++ w2)) (dotPath (ks ++ p :: qs))) ∧
    SameRes (get (w1 ++ (a ++ (u ++ b) ++ w2)) (dotPath (ks ++ p :: qs) ++ c! '|' :: rest))
      (get (w1 ++ (t ++ w2)) (dotPath (ks ++ p :: qs) ++ c! '|' :: rest)) := by
  have hv := resolves_after (site_resolves h) hr
  have hw := fun y => firstAt_without (D := KeyIs) (fun _ _ _ => keyIs_fun) (p := p) (vm := x) (v := y) (A := A) hk hne (B := B)
  have hu : IsValue u := by
    rcases hvu with ⟨_, h⟩ | ⟨_, h⟩ <;> exact IsObject.isValue h
  have hur : Resolves KeyIs u (p :: qs) r := by
    rcases hvu with ⟨h1, h2⟩ | ⟨h1, h2⟩
    · exact firstAt_resolves h1 h2 (fun y => (hw y).1) hv
    · exact firstAt_resolves h1 h2 (fun y => (hw y).2) hv
  have hr' := resolves_append (site_resolves (site_put h hu).1) hur
  have h1 := get_resolved hr' ⟨w1, w2, hw1, hw2, rfl⟩ hp (by simp) rest
  have h2 := get_resolved hr ⟨w1, w2, hw1, hw2, rfl⟩ hp (by simp) rest
  exact ⟨h1.1.trans h2.1.symm, h1.2.trans h2.2.symm⟩

/-- C61, taking elements out of an array anywhere in the document, or putting some in:
where `C` stood between `B` and `A`, stands `C'`. The elements of `B` keep their
indexes, those of `A` move by the difference. -/
theorem C61_splice {t a v u b w1 w2 r : Bytes} {ks qs B C C' A : List Bytes} (h : Site KeyIs t ks a v b)
    (hv : IsArray v (B ++ (C ++ A))) (hu : IsArray u (B ++ (C' ++ A))) (hw1 : Ws w1) (hw2 : Ws w2) {m m' : Nat}
    (hm : (m < B.length ∧ m' = m) ∨ ∃ j < A.length, m = B.length + (C.length + j) ∧ m' = B.length + (C'.length + j))
    (hl : m' < 2 ^ 63)
    (hr : Resolves KeyIs t (ks ++ numeral m :: qs) r) (hp : ∀ j ∈ ks ++ qs, PlainKey j ∧ j ≠ []) (rest : Bytes) :
    SameRes (get (w1 ++ (a ++ (u ++ b) ++ w2)) (dotPath (ks ++ numeral m' :: qs))) (get (w1 ++ (t ++ w2)) (dotPath (ks ++ numeral m :: qs))) ∧
    SameRes (get (w1 ++ (a ++ (u ++ b) ++ w2)) (dotPath (ks ++ numeral m' :: qs) ++ c! '|' :: rest))
      (get (w1 ++ (t ++ w2)) (dotPath (ks ++ numeral m :: qs) ++ c! '|' :: rest)) := by
  have hp' : ∀ n, ∀ j ∈ ks ++ numeral n :: qs, PlainKey j ∧ j ≠ [] := by
    intro n j hj
    rcases List.mem_append.1 hj with hj | hj
    · exact hp j (by simp [hj])
    · rcases List.mem_cons.1 hj with rfl | hj
      · exact plainKey_numeral _
      · exact hp j (by simp [hj])
  have e : (B ++ (C' ++ A))[m']? = (B ++ (C ++ A))[m]? := by
    rcases hm with ⟨h1, rfl⟩ | ⟨j, _, rfl, rfl⟩
    · rw [List.getElem?_append_left h1, List.getElem?_append_left h1]
    · rw [List.getElem?_append_right (by omega), List.getElem?_append_right (by omega), List.getElem?_append_right (by omega),
        List.getElem?_append_right (by omega)]
      congr 1; omega
  have hur : Resolves KeyIs u (numeral m' :: qs) r := by
    cases resolves_after (site_resolves h) hr with
    | key h => exact absurd ((IsObject.kindOf h).symm.trans (IsArray.kindOf hv)) (by decide)
    | index g1 g2 g3 g4 g5 =>
      have e1 := isArray_unique hv g1
      have e2 := indexText_unique (indexText_numeral m) g2
      subst e1; subst e2
      exact .index hu (indexText_numeral m') hl (e.trans g4) g5
  have hr' := resolves_append (site_resolves (site_put h (IsArray.isValue hu)).1) hur
  have h1 := get_resolved hr' ⟨w1, w2, hw1, hw2, rfl⟩ (hp' m') (by simp) rest
  have h2 := get_resolved hr ⟨w1, w2, hw1, hw2, rfl⟩ (hp' m) (by simp) rest
  exact ⟨h1.1.trans h2.1.symm, h1.2.trans h2.2.symm⟩

/-- The hypotheses of C61 can be met: `t.rows` has a place in this document, `id` leads
elsewhere. -/
example : ∃ a b, Site KeyIs b!"{\"id\":7,\"t\":{\"rows\":[{\"k\":1},{\"k\":2}]}}" [b!"t", b!"rows"] a b!"[{\"k\":1},{\"k\":2}]" b :=
  C61_place.1 sampleDeep

example : Apart [b!"t", b!"rows"] [b!"id"] := by
  refine .inr ⟨by decide, ?_⟩
  rintro n ⟨⟨ds, _, h1, _, h2 | h2 | h2⟩, _⟩
  · subst h2; exact absurd (h1 _ List.mem_cons_self) (by decide)
  · simp at h2
  · simp at h2

/-- Another value put there, and a member added. -/
example :
    (get b!"{\"id\":7,\"t\":{\"rows\":null}}" b!"t.rows" >>= fun v => .ok v.json) = .ok b!"null" ∧
    (get b!"{\"id\":7,\"t\":{\"rows\":null}}" b!"id" >>= fun v => .ok v.json) = .ok b!"7" ∧
    (get b!"{\"id\":7,\"t\":{\"rows\":null,\"n\":[2]}}" b!"t.n" >>= fun v => .ok v.json) = .ok b!"[2]" := by decide +kernel

/-- An element taken out: what index 2 found is found by index 1. -/
example :
    (get b!"{\"v\":[10,20,30]}" b!"v.2" >>= fun v => .ok v.json) = (get b!"{\"v\":[10,30]}" b!"v.1" >>= fun v => .ok v.json) := by
  decide +kernel

end Gjson
