import Verif.SpecEdit
import Verif.Props.Enumerate
import Verif.Props.Lookup
/-
Replacing a value inside a JSON text.
-/
namespace Gjson
open Spec

theorem isArray_unique {t : Bytes} {vs us : List Bytes} (h : IsArray t vs) (g : IsArray t us) : vs = us := by
  obtain ⟨v, l, h1, _, h3, h4, _⟩ := C27_array_each t t vs h (padded_self t)
  obtain ⟨v', l', g1, _, g3, g4, _⟩ := C27_array_each t t us g (padded_self t)
  rw [h1] at g1; cases g1
  rw [h3] at g3; cases g3
  rw [← h4, ← g4]

theorem isObject_unique {t : Bytes} {vs us : List (Bytes × Bytes)} (h : IsObject t vs) (g : IsObject t us) : vs = us := by
  obtain ⟨v, l, h1, _, h3, _, h4⟩ := C28_object_each t t vs h (padded_self t)
  obtain ⟨v', l', g1, _, g3, _, g4⟩ := C28_object_each t t us g (padded_self t)
  rw [h1] at g1; cases g1
  have h5 := h4 _ (fun acc k x => .ok (acc ++ [(k, x)], true)) []
  have g5 := g4 _ (fun acc k x => .ok (acc ++ [(k, x)], true)) []
  rw [visit_collect_pairs] at h5 g5
  rw [h5] at g5
  simp at g5
  rw [← h3, ← g3, g5]

theorem members_hole (m : Member) (after : List Member) : ∀ before : List Member,
    ∃ a b, ∀ y, membersText (before ++ { m with val := y } :: after) = a ++ (y ++ b)
  | [] => by
    cases after with
    | nil =>
      refine ⟨m.pre ++ (m.key ++ (m.mid1 ++ c! ':' :: m.mid2)), m.post, fun y => ?_⟩
      simp [membersText, Member.text]
    | cons x r =>
      refine ⟨m.pre ++ (m.key ++ (m.mid1 ++ c! ':' :: m.mid2)), m.post ++ c! ',' :: membersText (x :: r), fun y => ?_⟩
      simp [membersText, Member.text]
  | x :: before => by
    obtain ⟨a, b, h⟩ := members_hole m after before
    refine ⟨x.text ++ c! ',' :: a, b, fun y => ?_⟩
    have : ∀ l : List Member, l ≠ [] → membersText (x :: l) = x.text ++ c! ',' :: membersText l := by
      intro l hl; cases l with
      | nil => exact absurd rfl hl
      | cons _ _ => rfl
    rw [List.cons_append, this _ (by simp), h]
    simp

theorem elems_hole (e : Elem) (after : List Elem) : ∀ before : List Elem,
    ∃ a b, ∀ y, elemsText (before ++ { e with val := y } :: after) = a ++ (y ++ b)
  | [] => by
    cases after with
    | nil => exact ⟨e.pre, e.post, fun y => by simp [elemsText, Elem.text]⟩
    | cons x r =>
      exact ⟨e.pre, e.post ++ c! ',' :: elemsText (x :: r), fun y => by simp [elemsText, Elem.text]⟩
  | x :: before => by
    obtain ⟨a, b, h⟩ := elems_hole e after before
    refine ⟨x.text ++ c! ',' :: a, b, fun y => ?_⟩
    have : ∀ l : List Elem, l ≠ [] → elemsText (x :: l) = x.text ++ c! ',' :: elemsText l := by
      intro l hl; cases l with
      | nil => exact absurd rfl hl
      | cons _ _ => rfl
    rw [List.cons_append, this _ (by simp), h]
    simp

variable {D : Bytes → Bytes → Prop}

theorem site_text {t a v b : Bytes} {ks : List Bytes} (h : Site D t ks a v b) : t = a ++ (v ++ b) := by
  induction h with
  | here => simp
  | @key k v a b a' b' ks before after m _ _ _ hy _ ih =>
    have := hy m.val
    rw [this, ih]; simp
  | @index k v a b a' b' ks before after e _ _ _ hy _ ih =>
    have := hy e.val
    rw [this, ih]; simp

theorem isObject_listed {ms : List Member} (hne : ms ≠ []) (h : ∀ x ∈ ms, x.Wf ∧ IsValue x.val) :
    IsObject (c! '{' :: (membersText ms ++ [c! '}'])) (ms.map fun m => (m.key, m.val)) :=
  .inr ⟨ms, hne, fun x hx => (h x hx).1, fun x hx => (h x hx).2, rfl, rfl⟩

theorem isArray_listed {es : List Elem} (hne : es ≠ []) (h : ∀ x ∈ es, x.Wf ∧ IsValue x.val) :
    IsArray (c! '[' :: (elemsText es ++ [c! ']'])) (es.map Elem.val) :=
  .inr ⟨es, hne, fun x hx => (h x hx).1, fun x hx => (h x hx).2, rfl, rfl⟩

theorem site_resolves {t a v b : Bytes} {ks : List Bytes} (h : Site D t ks a v b) : Resolves D t ks v := by
  induction h with
  | here => exact .here
  | key hw hb hd _ _ ih =>
    refine .key (before := _) (by have := isObject_listed (by simp) hw; rw [List.map_append, List.map_cons] at this; exact this) ?_ hd ih
    intro m hm
    obtain ⟨x, hx, rfl⟩ := List.mem_map.1 hm
    exact hb x hx
  | index hw hi hn _ _ ih => exact .index (isArray_listed (by simp) hw) hi hn (by simp) ih

theorem resolves_append {t v r : Bytes} {ks ps : List Bytes} (h : Resolves D t ks v) (g : Resolves D v ps r) : Resolves D t (ks ++ ps) r := by
  induction h with
  | here => exact g
  | key h1 h2 h3 _ ih => exact .key h1 h2 h3 (ih g)
  | index h1 h2 h3 h4 _ ih => exact .index h1 h2 h3 h4 (ih g)

/-- Every value components lead to has a place. -/
theorem resolves_site {t v : Bytes} {ks : List Bytes} (h : Resolves D t ks v) : ∃ a b, Site D t ks a v b := by
  induction h with
  | here => exact ⟨_, _, .here⟩
  | @key t kl k v r ks before after ho hb hd _ ih =>
    obtain ⟨a', b', ih⟩ := ih
    rcases ho with ⟨w, _, _, he⟩ | ⟨ms, _, hw, hv, rfl, he⟩
    · simp at he
    · obtain ⟨l1, l2, rfl, h1, h2⟩ := List.map_eq_append_iff.1 he.symm
      obtain ⟨m, l3, rfl, h3, h4⟩ := List.map_eq_cons_iff.1 h2
      cases h3
      obtain ⟨a, b, hy⟩ := members_hole m l3 l1
      refine ⟨c! '{' :: (a ++ a'), b' ++ (b ++ [c! '}']), ?_⟩
      refine .key (a := c! '{' :: a) (fun x hx => ⟨hw x hx, hv x hx⟩) (fun x hx => hb (x.key, x.val) ?_) hd (fun y => ?_) ih
      · rw [← h1]; exact List.mem_map.2 ⟨x, hx, rfl⟩
      · rw [hy]; simp
  | @index t k v r ks vs n ha hi hn hv _ ih =>
    obtain ⟨a', b', ih⟩ := ih
    rcases ha with ⟨w, _, _, he⟩ | ⟨es, _, hw, hv', rfl, rfl⟩
    · subst he; simp at hv
    · obtain ⟨hlt, hx⟩ := List.getElem?_eq_some_iff.1 hv
      have hlt' : n < es.length := by simpa using hlt
      have e0 : es = es.take n ++ es[n] :: es.drop (n + 1) := by simp
      have e1 : (es.take n).length = n := by simp; omega
      have e2 : es[n].val = v := by simpa using hx
      obtain ⟨a, b, hy⟩ := elems_hole es[n] (es.drop (n + 1)) (es.take n)
      refine ⟨c! '[' :: (a ++ a'), b' ++ (b ++ [c! ']']), ?_⟩
      have := Site.index (D := D) (k := k) (a := c! '[' :: a) (b := b ++ [c! ']']) (before := es.take n) (e := es[n]) (after := es.drop (n + 1))
        (ks := ks) (v := r) (a' := a') (b' := b')
        (fun x hx => by rw [← e0] at hx; exact ⟨hw x hx, hv' x hx⟩) (by rw [e1]; exact hi) (by rw [e1]; exact hn)
        (fun y => by rw [hy]; simp) (by rw [e2]; exact ih)
      rw [← e0] at this
      exact this

/-- Another value in the same place. -/
theorem site_put {t a v b new : Bytes} {ks : List Bytes} (h : Site D t ks a v b) (hn : IsValue new) :
    Site D (a ++ (new ++ b)) ks a new b ∧ IsValue (a ++ (new ++ b)) := by
  induction h with
  | here => simpa using ⟨Site.here, hn⟩
  | @key k v a b a' b' ks before after m hw hb hd hy _ ih =>
    have e : (a ++ a') ++ (new ++ (b' ++ b)) = c! '{' :: (membersText (before ++ { m with val := a' ++ (new ++ b') } :: after) ++ [c! '}']) := by
      rw [hy]; simp
    rw [e]
    have hw' : ∀ x ∈ before ++ { m with val := a' ++ (new ++ b') } :: after, x.Wf ∧ IsValue x.val := by
      intro x hx
      rcases List.mem_append.1 hx with hx | hx
      · exact hw x (by simp [hx])
      rcases List.mem_cons.1 hx with rfl | hx
      · exact ⟨(hw m (by simp)).1, ih.2⟩
      · exact hw x (by simp [hx])
    exact ⟨.key hw' hb hd hy ih.1, IsObject.isValue (isObject_listed (by simp) hw')⟩
  | @index k v a b a' b' ks before after e hw hi hl hy _ ih =>
    have e' : (a ++ a') ++ (new ++ (b' ++ b)) = c! '[' :: (elemsText (before ++ { e with val := a' ++ (new ++ b') } :: after) ++ [c! ']']) := by
      rw [hy]; simp
    rw [e']
    have hw' : ∀ x ∈ before ++ { e with val := a' ++ (new ++ b') } :: after, x.Wf ∧ IsValue x.val := by
      intro x hx
      rcases List.mem_append.1 hx with hx | hx
      · exact hw x (by simp [hx])
      rcases List.mem_cons.1 hx with rfl | hx
      · exact ⟨(hw e (by simp)).1, ih.2⟩
      · exact hw x (by simp [hx])
    exact ⟨.index hw' hi hl hy ih.1, IsArray.isValue (isArray_listed (by simp) hw')⟩

/-- `v` is the value of the first member with the key `k`. -/
def FirstAt (D : Bytes → Bytes → Prop) (kvs : List (Bytes × Bytes)) (k v : Bytes) : Prop :=
  ∃ before kl after, kvs = before ++ (kl, v) :: after ∧ (∀ m ∈ before, ∃ s, D m.1 s ∧ s ≠ k) ∧ D kl k

theorem firstAt_other (hD : ∀ kl s s', D kl s → D kl s' → s = s') {k p km vm vm' v : Bytes} {A : List (Bytes × Bytes)} (hk : D km k)
    (hne : k ≠ p) : ∀ {B : List (Bytes × Bytes)}, FirstAt D (B ++ (km, vm) :: A) p v → FirstAt D (B ++ (km, vm') :: A) p v
  | [], ⟨[], kl, after, h1, h2, h3⟩ => by
    simp at h1
    obtain ⟨⟨rfl, _⟩, _⟩ := h1
    exact absurd (hD _ _ _ hk h3) hne
  | [], ⟨x :: before, kl, after, h1, h2, h3⟩ => by
    simp at h1
    obtain ⟨rfl, rfl⟩ := h1
    refine ⟨(km, vm') :: before, kl, after, rfl, ?_, h3⟩
    intro m hm
    rcases List.mem_cons.1 hm with rfl | hm
    · exact ⟨k, hk, hne⟩
    · exact h2 m (by simp [hm])
  | y :: B, ⟨[], kl, after, h1, h2, h3⟩ => by
    simp at h1
    obtain ⟨rfl, _⟩ := h1
    exact ⟨[], kl, _, rfl, by simp, h3⟩
  | y :: B, ⟨x :: before, kl, after, h1, h2, h3⟩ => by
    simp at h1
    obtain ⟨rfl, h1⟩ := h1
    obtain ⟨b, l, a, g1, g2, g3⟩ := firstAt_other hD (vm' := vm') hk hne (B := B) ⟨before, kl, after, h1, fun m hm => h2 m (by simp [hm]), h3⟩
    refine ⟨y :: b, l, a, by simp [g1], ?_, g3⟩
    intro m hm
    rcases List.mem_cons.1 hm with rfl | hm
    · exact h2 _ (by simp)
    · exact g2 m hm

theorem firstAt_same (hD : ∀ kl s s', D kl s → D kl s' → s = s') {k km vm v : Bytes} {A : List (Bytes × Bytes)} (hk : D km k) :
    ∀ {B : List (Bytes × Bytes)}, (∀ m ∈ B, ∃ s, D m.1 s ∧ s ≠ k) → FirstAt D (B ++ (km, vm) :: A) k v → v = vm
  | [], _, ⟨[], kl, after, h1, h2, h3⟩ => by simp at h1; exact h1.1.2.symm
  | [], _, ⟨x :: before, kl, after, h1, h2, h3⟩ => by
    simp at h1
    obtain ⟨rfl, _⟩ := h1
    obtain ⟨s, h4, h5⟩ := h2 _ List.mem_cons_self
    exact absurd (hD _ _ _ h4 hk) h5
  | y :: B, hB, ⟨[], kl, after, h1, h2, h3⟩ => by
    simp at h1
    obtain ⟨rfl, _⟩ := h1
    obtain ⟨s, h4, h5⟩ := hB _ List.mem_cons_self
    exact absurd (hD _ _ _ h4 h3) h5
  | y :: B, hB, ⟨x :: before, kl, after, h1, h2, h3⟩ => by
    simp at h1
    exact firstAt_same hD hk (B := B) (fun m hm => hB m (by simp [hm])) ⟨before, kl, after, h1.2, fun m hm => h2 m (by simp [hm]), h3⟩

theorem firstAt_without (hD : ∀ kl s s', D kl s → D kl s' → s = s') {k p km vm v : Bytes} {A : List (Bytes × Bytes)} (hk : D km k)
    (hne : k ≠ p) : ∀ {B : List (Bytes × Bytes)}, FirstAt D (B ++ (km, vm) :: A) p v ↔ FirstAt D (B ++ A) p v
  | [] => by
    constructor
    · rintro ⟨before, kl, after, h1, h2, h3⟩
      cases before with
      | nil => simp at h1; obtain ⟨⟨rfl, _⟩, _⟩ := h1; exact absurd (hD _ _ _ hk h3) hne
      | cons x before =>
        simp at h1
        obtain ⟨rfl, rfl⟩ := h1
        exact ⟨before, kl, after, rfl, fun m hm => h2 m (by simp [hm]), h3⟩
    · rintro ⟨before, kl, after, h1, h2, h3⟩
      refine ⟨(km, vm) :: before, kl, after, by simpa using h1, ?_, h3⟩
      intro m hm
      rcases List.mem_cons.1 hm with rfl | hm
      · exact ⟨k, hk, hne⟩
      · exact h2 m hm
  | y :: B => by
    have ih := firstAt_without hD (k := k) (p := p) (vm := vm) (v := v) (A := A) hk hne (B := B)
    have step : ∀ l l' : List (Bytes × Bytes), (FirstAt D l p v → FirstAt D l' p v) → FirstAt D (y :: l) p v → FirstAt D (y :: l') p v := by
      rintro l l' hl ⟨before, kl, after, h1, h2, h3⟩
      cases before with
      | nil => simp at h1; obtain ⟨rfl, _⟩ := h1; exact ⟨[], kl, _, rfl, by simp, h3⟩
      | cons x before =>
        simp at h1
        obtain ⟨rfl, h1⟩ := h1
        obtain ⟨b, l2, a, g1, g2, g3⟩ := hl ⟨before, kl, after, h1, fun m hm => h2 m (by simp [hm]), h3⟩
        refine ⟨y :: b, l2, a, by simp [g1], ?_, g3⟩
        intro m hm
        rcases List.mem_cons.1 hm with rfl | hm
        · exact h2 _ (by simp)
        · exact g2 m hm
    exact ⟨step _ _ ih.1, step _ _ ih.2⟩

/-- What other components lead to stays. -/
theorem site_frame (hD : ∀ kl s s', D kl s → D kl s' → s = s') {t a v b new r : Bytes} {ks ps : List Bytes} (h : Site D t ks a v b)
    (hn : IsValue new) (ha : Apart ks ps) (hr : Resolves D t ps r) : Resolves D (a ++ (new ++ b)) ps r := by
  induction h generalizing ps with
  | here => unfold Apart at ha; simp at ha
  | @key k v a b a' b' ks before after m hw hb hd hy hs ih =>
    cases ps with
    | nil => unfold Apart at ha; simp at ha
    | cons p ps =>
    have e : (a ++ a') ++ (new ++ (b' ++ b)) = c! '{' :: (membersText (before ++ { m with val := a' ++ (new ++ b') } :: after) ++ [c! '}']) := by
      rw [hy]; simp
    have hw' : ∀ x ∈ before ++ { m with val := a' ++ (new ++ b') } :: after, x.Wf ∧ IsValue x.val := by
      intro x hx
      rcases List.mem_append.1 hx with hx | hx
      · exact hw x (by simp [hx])
      rcases List.mem_cons.1 hx with rfl | hx
      · exact ⟨(hw m (by simp)).1, (site_put hs hn).2⟩
      · exact hw x (by simp [hx])
    have ho := isObject_listed (by simp) hw
    have ho' := isObject_listed (by simp) hw'
    rw [List.map_append, List.map_cons] at ho ho'
    rw [e]
    cases hr with
    | index h1 => exact absurd ((IsArray.kindOf h1).symm.trans (IsObject.kindOf ho)) (by decide)
    | @key _ kl _ v2 _ _ before2 after2 h1 h2 h3 h4 =>
      have hf : FirstAt D ((before.map fun m => (m.key, m.val)) ++ (m.key, m.val) :: (after.map fun m => (m.key, m.val))) p v2 :=
        ⟨before2, kl, after2, isObject_unique ho h1, h2, h3⟩
      rw [Apart] at ha
      rcases ha with ⟨rfl, ha⟩ | ⟨hne, _⟩
      · have hb' : ∀ x ∈ before.map fun m => (m.key, m.val), ∃ s, D x.1 s ∧ s ≠ k := by
          intro x hx
          obtain ⟨y, hy, rfl⟩ := List.mem_map.1 hx
          exact hb y hy
        have := firstAt_same hD hd hb' hf
        subst this
        exact .key ho' hb' hd (ih ha h4)
      · obtain ⟨b2, l2, a2, g1, g2, g3⟩ := firstAt_other hD (vm' := a' ++ (new ++ b')) hd hne hf
        rw [show (({ m with val := a' ++ (new ++ b') } : Member).key, ({ m with val := a' ++ (new ++ b') } : Member).val) = (m.key, a' ++ (new ++ b')) from rfl, g1] at ho'
        exact .key ho' g2 g3 h4
  | @index k v a b a' b' ks before after e0 hw hi hl hy hs ih =>
    cases ps with
    | nil => unfold Apart at ha; simp at ha
    | cons p ps =>
    have e : (a ++ a') ++ (new ++ (b' ++ b)) = c! '[' :: (elemsText (before ++ { e0 with val := a' ++ (new ++ b') } :: after) ++ [c! ']']) := by
      rw [hy]; simp
    have hw' : ∀ x ∈ before ++ { e0 with val := a' ++ (new ++ b') } :: after, x.Wf ∧ IsValue x.val := by
      intro x hx
      rcases List.mem_append.1 hx with hx | hx
      · exact hw x (by simp [hx])
      rcases List.mem_cons.1 hx with rfl | hx
      · exact ⟨(hw e0 (by simp)).1, (site_put hs hn).2⟩
      · exact hw x (by simp [hx])
    have ho := isArray_listed (by simp) hw
    have ho' := isArray_listed (by simp) hw'
    rw [e]
    cases hr with
    | key h1 => exact absurd ((IsObject.kindOf h1).symm.trans (IsArray.kindOf ho)) (by decide)
    | @index _ _ v2 _ _ vs n h1 h2 h3 h4 h5 =>
      have := isArray_unique h1 ho
      subst this
      rw [Apart] at ha
      rcases ha with ⟨rfl, ha⟩ | ⟨hne, hx⟩
      · have := indexText_unique h2 hi
        subst this
        have e2 : v2 = e0.val := by simpa using h4.symm
        subst e2
        exact .index ho' hi hl (by simp) (ih ha h5)
      · have hnn : n ≠ before.length := fun hh => hx n ⟨hh ▸ hi, h2⟩
        refine .index ho' h2 h3 ?_ h5
        rw [List.map_append, List.map_cons] at h4 ⊢
        rw [← h4]
        rcases Nat.lt_or_gt_of_ne hnn with hlt | hgt
        · rw [List.getElem?_append_left (by simpa using hlt), List.getElem?_append_left (by simpa using hlt)]
        · obtain ⟨j, rfl⟩ : ∃ j, n = before.length + 1 + j := ⟨n - (before.length + 1), by omega⟩
          rw [List.getElem?_append_right (by simp; omega), List.getElem?_append_right (by simp; omega)]
          simp only [List.length_map]
          rw [show before.length + 1 + j - before.length = j + 1 by omega, List.getElem?_cons_succ, List.getElem?_cons_succ]

end Gjson
