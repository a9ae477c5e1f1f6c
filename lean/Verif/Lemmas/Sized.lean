import Verif.Lemmas.Means
import Verif.SpecRoute
/-
Values and texts of bounded nesting, and what can be read from them.
-/
namespace Gjson
open Spec

theorem Spec.HasHeight.mono {m n : Nat} {v : Bytes} (h : HasHeight m v) (hn : m ≤ n) : HasHeight n v := by
  obtain ⟨d, h1, h2⟩ := h
  exact ⟨d, h1, by omega⟩

theorem Spec.HasHeight.value {n : Nat} {v : Bytes} (h : HasHeight n v) : IsValue v := by
  obtain ⟨d, h1, _⟩ := h
  exact value_of_denotes h1

theorem Spec.HasHeight.sized {n : Nat} {v : Bytes} (h : HasHeight n v) : SizedVal n v :=
  .inr ⟨v, [], by simp, h, ws_nil, .inl rfl⟩

theorem Spec.SizedVal.mono {m n : Nat} {r : Bytes} (h : SizedVal m r) (hn : m ≤ n) : SizedVal n r := by
  rcases h with h | ⟨v, w, h1, h2, h3⟩
  · exact .inl h
  · exact .inr ⟨v, w, h1, h2.mono hn, h3⟩

theorem Spec.SizedVal.text {n : Nat} {r : Bytes} (h : SizedVal n r) : SizedText n r := by
  rcases h with h | ⟨v, w, h1, h2, h3, _⟩
  · exact .inl h
  · exact .inr ⟨v, ⟨[], w, ws_nil, h3, by simpa using h1⟩, h2⟩

theorem sized_nil (n : Nat) : SizedVal n [] := .inl rfl

/-- The elements of an array. -/
theorem hasHeight_elem {n : Nat} {v : Bytes} {vs : List Bytes} (hv : HasHeight n v) (h : IsArray v vs) : ∀ e ∈ vs, HasHeight n e := by
  obtain ⟨d, hd, hn⟩ := hv
  have hk := IsArray.kindOf h
  cases hd with
  | leaf _ _ h2 => exact absurd hk h2
  | arrEmpty hw =>
    have h' : IsArray _ [] := .inl ⟨_, hw, rfl, rfl⟩
    rw [isArray_fun h, ← isArray_fun h']
    simp
  | @arr es hne hw hd =>
    have h' : IsArray _ _ := isArray_of_elems (es := es.map Prod.fst) (by simpa using fun a b hx => hw (a, b) hx)
      (by simpa using fun a b hx => value_of_denotes (hd (a, b) hx))
    have e := (isArray_fun h).trans (isArray_fun h').symm
    rw [e]
    intro x hx
    simp only [List.map_map, List.mem_map] at hx
    obtain ⟨y, hy, rfl⟩ := hx
    refine ⟨y.2, hd y hy, ?_⟩
    have := elemHeight_le (List.mem_map_of_mem (f := Prod.snd) hy)
    simp only [Doc.height] at hn
    omega
  | objEmpty => simp [kindOf] at hk
  | obj => simp [kindOf] at hk

/-- The members of an object. -/
theorem hasHeight_member {n : Nat} {v : Bytes} {kvs : List (Bytes × Bytes)} (hv : HasHeight n v) (h : IsObject v kvs) :
    ∀ m ∈ kvs, HasHeight n m.2 := by
  obtain ⟨d, hd, hn⟩ := hv
  have hk := IsObject.kindOf h
  cases hd with
  | leaf _ h2 _ => exact absurd hk h2
  | objEmpty hw =>
    have h' : IsObject _ [] := .inl ⟨_, hw, rfl, rfl⟩
    rw [isObject_fun h, ← isObject_fun h']
    simp
  | @obj es hne hw hd =>
    have h' : IsObject _ _ := isObject_of_members (ms := es.map Prod.fst) (by simpa using fun a b hx => hw (a, b) hx)
      (by simpa using fun a b hx => value_of_denotes (hd (a, b) hx))
    have e := (isObject_fun h).trans (isObject_fun h').symm
    rw [e]
    intro x hx
    simp only [List.map_map, List.mem_map] at hx
    obtain ⟨y, hy, rfl⟩ := hx
    refine ⟨y.2, hd y hy, ?_⟩
    have := memHeight_le (List.mem_map_of_mem (f := fun m : Member × Doc => (m.1.key, m.2)) hy)
    simp only [Doc.height] at hn this
    omega
  | arrEmpty => simp [kindOf] at hk
  | arr => simp [kindOf] at hk

theorem hasHeight_inside {n : Nat} {v t : Bytes} (hi : Inside v t) : HasHeight n v → HasHeight n t := by
  induction hi with
  | here => exact id
  | member ho hm _ ih => exact fun h => ih (hasHeight_member h ho _ hm)
  | elem ha he _ ih => exact fun h => ih (hasHeight_elem h ha _ he)

theorem elemHeight_of {n : Nat} : ∀ {ds : List Doc}, (∀ d ∈ ds, d.height ≤ n) → elemHeight ds ≤ n
  | [], _ => by simp [elemHeight]
  | d :: ds, h => by
    have := elemHeight_of (n := n) (ds := ds) fun x hx => h x (List.mem_cons_of_mem _ hx)
    have := h d (by simp)
    simp only [elemHeight]; omega

theorem memHeight_of {n : Nat} : ∀ {ds : List (Bytes × Doc)}, (∀ d ∈ ds, d.2.height ≤ n) → memHeight ds ≤ n
  | [], _ => by simp [memHeight]
  | (k, d) :: ds, h => by
    have := memHeight_of (n := n) (ds := ds) fun x hx => h x (List.mem_cons_of_mem _ hx)
    have := h (k, d) (by simp)
    simp only [memHeight] at this ⊢; omega

theorem commaSep_elems : ∀ es : List Elem, elemsText es = commaSep (es.map Elem.text)
  | [] => rfl
  | [e] => by simp [elemsText, commaSep]
  | e :: f :: r => by
    have := commaSep_elems (f :: r)
    simp only [List.map_cons, elemsText, commaSep] at this ⊢
    rw [this]

theorem commaSep_members : ∀ es : List Member, membersText es = commaSep (es.map Member.text)
  | [] => rfl
  | [e] => by simp [membersText, commaSep]
  | e :: f :: r => by
    have := commaSep_members (f :: r)
    simp only [List.map_cons, membersText, commaSep] at this ⊢
    rw [this]

/-- Values in an array. -/
theorem hasHeight_array {n : Nat} {rs : List Bytes} (h : ∀ r ∈ rs, r ≠ [] ∧ SizedVal n r) : HasHeight (n + 1) (arrayText rs) := by
  have key : ∃ es : List (Elem × Doc), es.map (fun e => e.1.text) = rs ∧ (∀ e ∈ es, e.1.Wf) ∧ (∀ e ∈ es, Denotes e.1.val e.2) ∧
      ∀ e ∈ es, e.2.height ≤ n := by
    induction rs with
    | nil => exact ⟨[], rfl, by simp, by simp, by simp⟩
    | cons r rs ih =>
      obtain ⟨es, h1, h2, h3, h4⟩ := ih fun x hx => h x (List.mem_cons_of_mem _ hx)
      obtain ⟨hne, hs⟩ := h r (by simp)
      rcases hs with hs | ⟨v, w, e, ⟨d, g1, g2⟩, g3, _⟩
      · exact absurd hs hne
      · refine ⟨(⟨[], v, w⟩, d) :: es, ?_, ?_, ?_, ?_⟩
        · rw [List.map_cons, h1]; simp [Elem.text, e]
        · intro x hx
          rcases List.mem_cons.1 hx with rfl | hx
          · exact ⟨ws_nil, g3⟩
          · exact h2 x hx
        · intro x hx
          rcases List.mem_cons.1 hx with rfl | hx
          · exact g1
          · exact h3 x hx
        · intro x hx
          rcases List.mem_cons.1 hx with rfl | hx
          · exact g2
          · exact h4 x hx
  obtain ⟨es, h1, h2, h3, h4⟩ := key
  by_cases hne : es = []
  · subst hne
    subst h1
    exact ⟨.arr [], .arrEmpty (w := []) ws_nil, by simp [Doc.height, elemHeight]⟩
  · refine ⟨.arr (es.map Prod.snd), ?_, ?_⟩
    · have := Denotes.arr hne h2 h3
      rw [commaSep_elems, List.map_map] at this
      rw [← h1]
      exact this
    · simp only [Doc.height]
      have := elemHeight_of (n := n) (ds := es.map Prod.snd) (by
        intro d hd
        obtain ⟨x, hx, rfl⟩ := List.mem_map.1 hd
        exact h4 x hx)
      omega

/-- Values in an object. -/
theorem hasHeight_object {n : Nat} {kvs : List (Bytes × Bytes)} (h : ∀ m ∈ kvs, StrLit m.1 ∧ m.2 ≠ [] ∧ SizedVal n m.2) :
    HasHeight (n + 1) (objectText kvs) := by
  have key : ∃ es : List (Member × Doc), es.map (fun e => e.1.text) = (kvs.map fun kv => kv.1 ++ c! ':' :: kv.2) ∧ (∀ e ∈ es, e.1.Wf) ∧
      (∀ e ∈ es, Denotes e.1.val e.2) ∧ ∀ e ∈ es, e.2.height ≤ n := by
    induction kvs with
    | nil => exact ⟨[], rfl, by simp, by simp, by simp⟩
    | cons r rs ih =>
      obtain ⟨es, h1, h2, h3, h4⟩ := ih fun x hx => h x (List.mem_cons_of_mem _ hx)
      obtain ⟨hk, hne, hs⟩ := h r (by simp)
      rcases hs with hs | ⟨v, w, e, ⟨d, g1, g2⟩, g3, _⟩
      · exact absurd hs hne
      · refine ⟨(⟨[], r.1, [], [], v, w⟩, d) :: es, ?_, ?_, ?_, ?_⟩
        · rw [List.map_cons, h1]; simp [Member.text, e]
        · intro x hx
          rcases List.mem_cons.1 hx with rfl | hx
          · exact ⟨ws_nil, hk, ws_nil, ws_nil, g3⟩
          · exact h2 x hx
        · intro x hx
          rcases List.mem_cons.1 hx with rfl | hx
          · exact g1
          · exact h3 x hx
        · intro x hx
          rcases List.mem_cons.1 hx with rfl | hx
          · exact g2
          · exact h4 x hx
  obtain ⟨es, h1, h2, h3, h4⟩ := key
  by_cases hne : es = []
  · subst hne
    have : objectText kvs = c! '{' :: ([] ++ [c! '}']) := by unfold objectText; rw [← h1]; rfl
    rw [this]
    exact ⟨.obj [], .objEmpty ws_nil, by simp [Doc.height, memHeight]⟩
  · refine ⟨.obj (es.map fun m => (m.1.key, m.2)), ?_, ?_⟩
    · have := Denotes.obj hne h2 h3
      rw [commaSep_members, List.map_map] at this
      unfold objectText
      rw [← h1]
      exact this
    · simp only [Doc.height]
      have := memHeight_of (n := n) (ds := es.map fun m => (m.1.key, m.2)) (by
        intro d hd
        obtain ⟨x, hx, rfl⟩ := List.mem_map.1 hd
        exact h4 x hx)
      omega

/-! ### What can be read -/

theorem scalar_cases {v : Bytes} (h : IsValue v) (hc : ¬ IsCont v) : v = b!"null" ∨ (∃ b, v = boolText b) ∨ StrLit v ∨ NumLit v := by
  cases h with
  | null => exact .inl rfl
  | «true» => exact .inr (.inl ⟨true, rfl⟩)
  | «false» => exact .inr (.inl ⟨false, rfl⟩)
  | str h => exact .inr (.inr (.inl h))
  | num h => exact .inr (.inr (.inr h))
  | arrEmpty => exact absurd (.inr (by simp [kindOf])) hc
  | arr => exact absurd (.inr (by simp [kindOf])) hc
  | objEmpty => exact absurd (.inl (by simp [kindOf])) hc
  | obj => exact absurd (.inl (by simp [kindOf])) hc

theorem sized_cases {n : Nat} {x : Bytes} (h : SizedVal n x) : NoScalar x ∨ (∃ b, x = boolText b) ∨ StrLit x ∨ NumLit x := by
  rcases h with h | ⟨v, w, e, h1, h2, h3⟩
  · exact .inl (.inl h)
  · have hv := h1.value
    by_cases hc : IsCont v
    · refine .inl (.inr (.inr ?_))
      rw [e, kindOf_append (isValue_ne_nil hv)]
      exact hc
    · rcases h3 with h3 | h3
      · subst h3
        rw [List.append_nil] at e
        subst e
        rcases scalar_cases hv hc with h | h | h | h
        · exact .inl (.inr (.inl h))
        · exact .inr (.inl h)
        · exact .inr (.inr (.inl h))
        · exact .inr (.inr (.inr h))
      · exact absurd h3 hc

theorem signed_total {n : Nat} {x : Bytes} (h : SizedVal n x) : ∃ m, SignedVal x m := by
  rcases sized_cases h with h | ⟨b, rfl⟩ | h | h
  · exact ⟨_, .other h⟩
  · exact ⟨_, .bool b⟩
  · obtain ⟨s, hs⟩ := content_total h
    obtain ⟨m, hm⟩ := (C46_determined s).2.1
    exact ⟨m, .str hs ((hm m).2 rfl)⟩
  · obtain ⟨m, hm⟩ := (C46_determined x).2.1
    exact ⟨m, .num h ((hm m).2 rfl)⟩

theorem unsigned_total {n : Nat} {x : Bytes} (h : SizedVal n x) : ∃ m, UnsignedVal x m := by
  rcases sized_cases h with h | ⟨b, rfl⟩ | h | h
  · exact ⟨_, .other h⟩
  · exact ⟨_, .bool b⟩
  · obtain ⟨s, hs⟩ := content_total h
    obtain ⟨m, hm⟩ := (C46_determined s).2.2
    exact ⟨m, .str hs ((hm m).2 rfl)⟩
  · obtain ⟨m, hm⟩ := (C46_determined x).2.2
    exact ⟨m, .num h ((hm m).2 rfl)⟩

theorem truth_total {n : Nat} {x : Bytes} (h : SizedVal n x) : ∃ b, Truth x b := by
  by_cases h1 : x ∈ trueTexts
  · exact ⟨_, .yes h1⟩
  · by_cases h2 : x ∈ falseTexts
    · exact ⟨_, .no h2⟩
    · obtain ⟨m, hm⟩ := signed_total h
      exact ⟨_, .num h1 h2 hm⟩

theorem stands_total {rh : Bytes} (h : Right rh) : ∃ r, Stands rh r := by
  rcases h with h | h
  · exact ⟨rh, .plain h⟩
  · by_cases he : rh = b!"\"\""
    · subst he; exact ⟨_, .empty⟩
    · obtain ⟨s, hs⟩ := content_total h
      exact ⟨s, .quoted he hs⟩

open Classical in
theorem compared_total {n : Nat} {op : Option Op} {q lh rh x : Bytes} (hq : QueryText q lh op rh) (hr : Right rh) (h : SizedVal n x) :
    ∃ b, Compared op rh x b := by
  cases hq with
  | present => exact ⟨_, .exists⟩
  | @compare _ _ _ _ _ _ _ op =>
    obtain ⟨r, h1⟩ := stands_total hr
    · by_cases ht : ∀ c ∈ r.head?, c ≠ c! '~'
      · by_cases hx : x = []
        · subst hx; exact ⟨_, .missing h1 ht⟩
        · rcases sized_cases h with h | ⟨b, rfl⟩ | h | h
          · exact ⟨_, .other h1 ht hx h⟩
          · exact ⟨_, .bool b h1 ht⟩
          · obtain ⟨s, hs⟩ := content_total h
            exact ⟨decide (op.onTexts s r), .string h1 ht hs (by simp)⟩
          · obtain ⟨y, hy⟩ := (C46_determined x).1
            obtain ⟨z, hz⟩ := (C46_determined r).1
            exact ⟨_, .number (lt := decide (F64.Below y z)) (eq := decide (F64.Equal y z)) (gt := decide (F64.Below z y)) h1 ht h
              ((hy y).2 rfl) ((hz z).2 rfl) (by simp) (by simp) (by simp)⟩
      · obtain ⟨t, htr⟩ := truth_total h
        cases r with
        | nil => simp at ht
        | cons c r =>
          have : c = c! '~' := by simpa using ht
          subst this
          exact ⟨_, .truth h1 htr⟩

/-- What `parse` keeps of a JSON text. -/
theorem kept_total {n : Nat} {out : Bytes} (h : SizedText n out) : ∃ x, Kept out x ∧ SizedVal n x := by
  rcases h with rfl | ⟨v, ⟨w1, w2, h1, h2, rfl⟩, hv⟩
  · exact ⟨[], .blank ws_nil, sized_nil n⟩
  · by_cases hc : IsCont v
    · refine ⟨v ++ w2, .cont h1 ?_, .inr ⟨v, w2, rfl, hv, h2, .inr hc⟩⟩
      rw [kindOf_append (isValue_ne_nil hv.value)]
      exact hc
    · have hc' := hc
      unfold IsCont at hc'
      rw [not_or] at hc'
      exact ⟨v, .scalar hv.value hc'.1 hc'.2 ⟨w1, w2, h1, h2, rfl⟩, hv.sized⟩

end Gjson
