import Verif.Props.EndToEnd
/-
C76: how values taken from any texts compare.
-/
namespace Gjson
open Spec

namespace Spec

/-- The order of two texts as texts. -/
def TextOrder (x y : Bytes) (o : Ordering) : Prop := (o = .lt ∧ x < y) ∨ (o = .eq ∧ x = y) ∨ (o = .gt ∧ y < x)

/-- The order of the values with the texts `x` and `y`: first by kind, strings by what they
say, numbers by value, the others by their text. -/
inductive Ranks : Bytes → Bytes → Ordering → Prop
  | below {x y : Bytes} : kindRank (kindOf x) < kindRank (kindOf y) → Ranks x y .lt
  | above {x y : Bytes} : kindRank (kindOf y) < kindRank (kindOf x) → Ranks x y .gt
  | strings {x y s t : Bytes} {o : Ordering} : kindOf x = .string → kindOf y = .string → StrOf x s → StrOf y t → TextOrder s t o →
      Ranks x y o
  | less {x y : Bytes} {a b : F64} : kindOf x = .number → kindOf y = .number → F64Of x a → F64Of y b → a.lt b = true → Ranks x y .lt
  | more {x y : Bytes} {a b : F64} : kindOf x = .number → kindOf y = .number → F64Of x a → F64Of y b → b.lt a = true → Ranks x y .gt
  | same {x y : Bytes} {a b : F64} : kindOf x = .number → kindOf y = .number → F64Of x a → F64Of y b → a.lt b = false → b.lt a = false →
      Ranks x y .eq
  | texts {x y : Bytes} {o : Ordering} : kindOf x = kindOf y → kindOf x ≠ .string → kindOf x ≠ .number → TextOrder x y o → Ranks x y o

end Spec

theorem textOrder_cmp {x y : Bytes} {o : Ordering} : cmpBytes x y = o ↔ TextOrder x y o := by
  have h1 := cmpBytes_lt x y
  have h2 := cmpBytes_eq x y
  have h3 := cmpBytes_gt x y
  unfold TextOrder
  rw [← h1, ← h2, ← h3]
  constructor
  · rintro rfl
    cases cmpBytes x y <;> simp
  · rintro (⟨rfl, h⟩ | ⟨rfl, h⟩ | ⟨rfl, h⟩) <;> exact h

theorem kindRank_one {a b : Kind} (h : kindRank a = kindRank b) : a = b := by
  cases a <;> cases b <;> first | rfl | (exact absurd h (by decide))

theorem told_str {v : Value} {r s : Bytes} (h : ToldBy (.ok v) r) : v.str = .ok s ↔ StrOf r s := h.str s
theorem told_f64 {v : Value} {r : Bytes} {d : F64} (h : ToldBy (.ok v) r) : v.f64 = .ok d ↔ F64Of r d := h.f64 d
theorem told_kind {v : Value} {r : Bytes} (h : ToldBy (.ok v) r) : v.kind = kindOf r ∧ v.json = r := by
  obtain ⟨w, e, h1, h2, _⟩ := h.value
  cases e
  exact ⟨h2, h1⟩

theorem f64_asymm {x y : F64} (h1 : x.lt y = true) (h2 : y.lt x = true) : False := by
  have hx : x ≠ F64.nan := by rintro rfl; cases y <;> simp [F64.lt] at h1
  have hy : y ≠ F64.nan := by rintro rfl; cases x <;> simp [F64.lt] at h1
  have := cmpF64_ord.swap x y hx hy
  rw [show cmpF64 x y = .lt from if_pos h1, show cmpF64 y x = .lt from if_pos h2] at this
  cases this

theorem comparable_handed {v : Value} (h : Handed v) (he : v.exists = true) : Comparable v := by
  obtain ⟨w, h1, h2⟩ := C62_text h he
  have hw : w.exists = true := exists_json.2 (h2.json ▸ exists_json.1 he)
  obtain ⟨g1, g2⟩ := (C05_parse_partial _ w h1 (.inl hw)).2.2.2.2.2
  exact ⟨fun e => by rw [h2.str]; exact g1 (h2.kind.symm.trans e), fun e => by rw [h2.f64]; exact g2 (h2.kind.symm.trans e)⟩

theorem ranks_ok {a b : Value} {r s : Bytes} (ha : ToldBy (.ok a) r) (hb : ToldBy (.ok b) s) {o : Ordering} (h : Ranks r s o) :
    a.cmp b = .ok o := by
  obtain ⟨ka, ja⟩ := told_kind ha
  obtain ⟨kb, jb⟩ := told_kind hb
  cases h with
  | below h =>
    rw [C26_kind_first a b (fun e => by rw [ka, kb] at e; rw [e] at h; omega), ka, kb, if_pos h]
  | above h =>
    rw [C26_kind_first a b (fun e => by rw [ka, kb] at e; rw [e] at h; omega), ka, kb, if_neg (by omega)]
  | strings h1 h2 h3 h4 h5 =>
    unfold Value.cmp
    simp only
    rw [if_neg (fun e => e ((kindCmp _ _).1.2 (by rw [ka, kb, h1, h2]))), if_pos (ka.trans h1), (told_str ha).2 h3, (told_str hb).2 h4]
    exact congrArg _ (textOrder_cmp.2 h5)
  | less h1 h2 h3 h4 h5 => exact (C26_numbers a b _ _ (ka.trans h1) (kb.trans h2) ((told_f64 ha).2 h3) ((told_f64 hb).2 h4)).1.2 h5
  | more h1 h2 h3 h4 h5 =>
    unfold Value.cmp
    simp only
    rw [if_neg (fun e => e ((kindCmp _ _).1.2 (by rw [ka, kb, h1, h2]))), if_neg (by rw [ka, h1]; decide), if_pos (ka.trans h1),
      (told_f64 ha).2 h3, (told_f64 hb).2 h4, ok_bind, ok_bind, if_neg (fun e => f64_asymm e h5), if_pos h5]
  | same h1 h2 h3 h4 h5 h6 => exact (C26_numbers a b _ _ (ka.trans h1) (kb.trans h2) ((told_f64 ha).2 h3) ((told_f64 hb).2 h4)).2.2.2 ⟨h5, h6⟩
  | texts h1 h2 h3 h4 =>
    unfold Value.cmp
    simp only
    rw [if_neg (fun e => e ((kindCmp _ _).1.2 (by rw [ka, kb, h1]))), if_neg (by rw [ka]; exact h2), if_neg (by rw [ka]; exact h3), ja, jb]
    exact congrArg _ (textOrder_cmp.2 h4)

theorem ranks_some {a b : Value} {r s : Bytes} (ha : ToldBy (.ok a) r) (hb : ToldBy (.ok b) s) : ∃ o, Ranks r s o := by
  by_cases hk : kindOf r = kindOf s
  · by_cases h1 : kindOf r = .string
    · obtain ⟨x, hx⟩ := ha.total.1
      obtain ⟨y, hy⟩ := hb.total.1
      exact ⟨_, .strings h1 (hk ▸ h1) ((ha.str x).1 hx) ((hb.str y).1 hy) (textOrder_cmp.1 rfl)⟩
    · by_cases h2 : kindOf r = .number
      · obtain ⟨x, hx⟩ := ha.total.2.2.2.1
        obtain ⟨y, hy⟩ := hb.total.2.2.2.1
        have hx := (ha.f64 x).1 hx
        have hy := (hb.f64 y).1 hy
        cases e : x.lt y with
        | true => exact ⟨_, .less h2 (hk ▸ h2) hx hy e⟩
        | false =>
          cases e' : y.lt x with
          | true => exact ⟨_, .more h2 (hk ▸ h2) hx hy e'⟩
          | false => exact ⟨_, .same h2 (hk ▸ h2) hx hy e e'⟩
      · exact ⟨_, .texts hk h1 h2 (textOrder_cmp.1 rfl)⟩
  · rcases Nat.lt_trichotomy (kindRank (kindOf r)) (kindRank (kindOf s)) with h | h | h
    · exact ⟨_, .below h⟩
    · exact absurd (kindRank_one h) hk
    · exact ⟨_, .above h⟩

/-- C76: how two values compare is told by their texts. -/
theorem C76_cmp {a b : Value} {r s : Bytes} (ha : ToldBy (.ok a) r) (hb : ToldBy (.ok b) s) (o : Ordering) :
    a.cmp b = .ok o ↔ Ranks r s o := by
  obtain ⟨o', h⟩ := ranks_some ha hb
  have h' := ranks_ok ha hb h
  constructor
  · intro e
    rw [h'] at e
    cases e
    exact h
  · exact ranks_ok ha hb

/-- C76: so is whether they are equal. -/
theorem C76_eq {a b : Value} {r s : Bytes} (ha : ToldBy (.ok a) r) (hb : ToldBy (.ok b) s) : a.eq b = .ok true ↔ Ranks r s .eq := by
  obtain ⟨o, h⟩ := ranks_some ha hb
  have h' := ranks_ok ha hb h
  rw [← C76_cmp ha hb, h', Value.eq, h', ok_bind]
  simp

/-- C76: two results, of any texts and paths. -/
theorem C76_get {doc doc' p q r s : Bytes} (hr : Yields doc p r) (hs : Yields doc' q s) (o : Ordering) :
    (do let a ← get doc p; let b ← get doc' q; a.cmp b) = .ok o ↔ Ranks r s o := by
  obtain ⟨a, h1, _⟩ := C74_sound hr
  obtain ⟨b, h2, _⟩ := C74_sound hs
  have ha := C75_get hr
  have hb := C75_get hs
  rw [h1] at ha
  rw [h2] at hb
  rw [h1, h2]
  exact C76_cmp ha hb o

/-- C76: every two values that exist and that the library hands out. -/
theorem C76_handed {a b : Value} (ha : Handed a) (hb : Handed b) (ea : a.exists = true) (eb : b.exists = true) (o : Ordering) :
    a.cmp b = .ok o ↔ Ranks a.json b.json o :=
  C76_cmp (toldBy_fits ha (fits_of rfl ea)) (toldBy_fits hb (fits_of rfl eb)) o

/-- C76: on the texts of such values this is a total order. -/
theorem C76_order {a b c : Value} (ha : Handed a) (hb : Handed b) (hc : Handed c) (ea : a.exists = true) (eb : b.exists = true) (ec : c.exists = true) :
    Ranks a.json a.json .eq ∧ (∃ o, Ranks a.json b.json o ∧ Ranks b.json a.json o.swap ∧ ∀ o', Ranks a.json b.json o' → o' = o) ∧
    (Ranks a.json b.json .lt → Ranks b.json c.json .lt → Ranks a.json c.json .lt) ∧
    ∀ o, Ranks a.json b.json .eq → Ranks b.json c.json o → Ranks a.json c.json o := by
  have ha' := comparable_handed ha ea
  have hb' := comparable_handed hb eb
  have hc' := comparable_handed hc ec
  obtain ⟨t1, t2, t3, t4⟩ := C26_total_order
  have hab := C76_handed ha hb ea eb
  have hac := C76_handed ha hc ea ec
  have hbc := C76_handed hb hc eb ec
  refine ⟨(C76_handed ha ha ea ea _).1 (t1 a ha'), ?_, ?_, fun o => ?_⟩
  · obtain ⟨o, h1, h2⟩ := t2 a b ha' hb'
    refine ⟨o, (hab o).1 h1, (C76_handed hb ha eb ea _).1 h2, fun o' h => ?_⟩
    have := (hab o').2 h
    rw [h1] at this
    cases this
    rfl
  · rw [← hab, ← hbc, ← hac]
    intro h1 h2
    rcases t3 a b c ha' hb' hc' (.inl h1) (.inl h2) with h | h
    · exact h
    · obtain ⟨o, g1, g2⟩ := t2 a c ha' hc'
      rw [h] at g1
      cases g1
      have := t4 c a b hc' ha' hb' g2
      obtain ⟨o, g3, g4⟩ := t2 b c hb' hc'
      rw [h2] at g3
      cases g3
      rw [g4, h1] at this
      cases this
  · rw [← hab, ← hbc, ← hac]
    intro h1 h2
    rw [← t4 a b c ha' hb' hc' h1, h2]

/-- In texts that are not JSON: `1e1` is above `9-` (which is nothing as a number), a word that
begins as `true` does is above every string, and strings stand by what they say. -/
example : Ranks b!"1e1" b!"9-" .gt ∧ Ranks b!"\"zz\"" b!"t?!x" .lt ∧ Ranks b!"\"\\u0041\"" b!"\"A\"" .eq ∧ Ranks b!"[1" b!"[1" .eq :=
  ⟨(C76_get (doc := b!"[1e1,9-]") (doc' := b!"[1e1,9-]") (p := b!"0") (q := b!"1") ((C74_plain (by decide) _ _).1 (ok_of_json (by decide +kernel)))
      ((C74_plain (by decide) _ _).1 (ok_of_json (by decide +kernel))) _).1 (by decide +kernel),
   .below (by decide),
   (C76_get (doc := b!"[\"\\u0041\",\"A\"") (doc' := b!"[\"\\u0041\",\"A\"") (p := b!"0") (q := b!"1")
      ((C74_plain (by decide) _ _).1 (ok_of_json (by decide +kernel))) ((C74_plain (by decide) _ _).1 (ok_of_json (by decide +kernel))) _).1 (by decide +kernel),
   .texts rfl (by decide) (by decide) (.inr (.inl ⟨rfl, rfl⟩))⟩

end Gjson
