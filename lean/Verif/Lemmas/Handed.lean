import Verif.Lemmas.Pipe
/-
Every value a caller can hold has one text, so searching it is searching that text.
-/
namespace Gjson
open Spec

/-- Values a caller can hold: from `parse`, from `get`, and from `get`, `array` and
`each` (the key and value handed to the callback) on such a value. -/
inductive Handed : Value → Prop
  | parse {t : Bytes} {v : Value} : parse t = .ok v → Handed v
  | get {t p : Bytes} {v : Value} : get t p = .ok v → Handed v
  | value {v w : Value} {p : Bytes} : Handed v → v.get p = .ok w → Handed w
  | element {v e : Value} {vals : List Value} : Handed v → v.array = .ok vals → e ∈ vals → Handed e
  | key {v k e : Value} {l : List (Value × Value)} : Handed v →
      v.each (fun acc k x => .ok (acc ++ [(k, x)], true)) [] = .ok l → (k, e) ∈ l → Handed k
  | entry {v k e : Value} {l : List (Value × Value)} : Handed v →
      v.each (fun acc k x => .ok (acc ++ [(k, x)], true)) [] = .ok l → (k, e) ∈ l → Handed e

theorem toks_oneText (i : Nat) (s : Bytes) : ∀ v ∈ toks i s, OneText v := by
  fun_induction toks i s <;> simp_all [tokVal_oneText]

theorem default_oneText : OneText Value.default := .inl rfl

theorem pairUp_both : ∀ (l : List Value) {p : Value × Value}, p ∈ pairUp l → p.1 ∈ l ∧ p.2 ∈ l
  | a :: b :: r, p, h => by
    rw [pairUp, List.mem_cons] at h
    rcases h with rfl | h
    · simp
    · have := pairUp_both r h
      simp [this]
  | [], _, h => by simp [pairUp] at h
  | [_], _, h => by simp [pairUp] at h

theorem visit_collect_pairs (l : List (Value × Value)) : ∀ acc : List (Value × Value),
    visit (ε := Fault) (fun acc (p : Value × Value) => .ok (acc ++ [(p.1, p.2)], true)) acc l = .ok (acc ++ l) := by
  induction l with
  | nil => intro acc; simp [visit]
  | cons x l ih => intro acc; simp [visit, ih]

theorem each_oneText {v : Value} {l : List (Value × Value)}
    (h : v.each (fun acc k x => .ok (acc ++ [(k, x)], true)) [] = .ok l) : ∀ p ∈ l, OneText p.1 ∧ OneText p.2 := by
  cases hj : v.json with
  | nil =>
    have : v.exists = false := by unfold Value.exists; rw [hj]; rfl
    unfold Value.each at h
    rw [this] at h
    simp at h; subst h; simp
  | cons c q =>
    by_cases hk : v.kind = .object ∨ v.kind = .array
    · rw [each_eq hj hk, visit_collect_pairs] at h
      cases h
      intro p hp
      rw [List.nil_append] at hp
      unfold eachPairs at hp
      split at hp
      · have := pairUp_both _ hp
        exact ⟨toks_oneText _ _ _ this.1, toks_oneText _ _ _ this.2⟩
      · obtain ⟨x, hx, rfl⟩ := List.mem_map.1 hp
        exact ⟨default_oneText, toks_oneText _ _ _ hx⟩
    · unfold Value.each at h
      rw [if_neg (by rw [show v.exists = true from exists_json.2 (by rw [hj]; simp)]; simp), if_pos (by grind)] at h
      cases h
      intro p hp
      simp at hp; subst hp
      exact ⟨default_oneText, .inr rfl⟩

theorem array_oneText {v : Value} {vals : List Value} (h : v.array = .ok vals) : ∀ e ∈ vals, OneText e := by
  by_cases hk : v.kind = .array
  · cases hj : v.json with
    | nil =>
      have : v.exists = false := by unfold Value.exists; rw [hj]; rfl
      unfold Value.array Value.each at h
      rw [if_pos hk, this] at h
      simp at h; subst h; simp
    | cons c q =>
      rw [array_eq hj hk] at h
      cases h
      exact toks_oneText _ _
  · unfold Value.array at h
    rw [if_neg hk] at h; cases h; simp

theorem Handed.oneText {v : Value} (h : Handed v) : OneText v := by
  induction h with
  | parse h => rw [parse_eq] at h; cases h; exact pParse_oneText _ _
  | get h => exact (get_prov h).oneText
  | value _ h ih =>
    have h' : getIn Gjson.get _ _ = .ok _ := h
    have hadd : ∀ (i : Option Nat) {x : Value}, OneText x → OneText (addIndex i x) := by
      intro i x hx; unfold addIndex; split <;> exact hx
    unfold getIn at h'
    simp only at h'
    split at h'
    · obtain ⟨r, h1, h2⟩ := bind_eq_ok.1 h'
      cases h2
      exact hadd _ (get_prov h1).oneText
    · obtain ⟨r, h1, h2⟩ := bind_eq_ok.1 h'
      cases h2
      exact hadd _ (.inl rfl)
  | element _ h he _ => exact array_oneText h _ he
  | key _ h he _ => exact (each_oneText h _ he).1
  | entry _ h he _ => exact (each_oneText h _ he).2

end Gjson
