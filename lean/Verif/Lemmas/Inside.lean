import Verif.Lemmas.Find
/-
What the search finds is part of the document searched.
-/
namespace Gjson
open Spec

theorem Spec.Inside.trans {a b c : Bytes} (h : Inside a b) (h' : Inside b c) : Inside a c := by
  induction h with
  | here => exact h'
  | member ho hm _ ih => exact .member ho hm (ih h')
  | elem ha hm _ ih => exact .elem ha hm (ih h')

theorem Spec.Inside.value {a b : Bytes} (h : Inside a b) (hv : IsValue a) : IsValue b := by
  induction h with
  | here => exact hv
  | member ho hm _ ih => exact ih (IsObject.mem_value ho _ hm).2
  | elem ha hm _ ih => exact ih (IsArray.mem_value ha _ hm).1

theorem met_reaches {vs : List Bytes} {es : List Seen} (h : Spec.Met vs es) {kl w : Bytes} (hm : .member kl w ∈ es) :
    ∃ v ∈ vs, Inside v w := by
  induction h with
  | nil => simp at hm
  | str _ => simp at hm
  | scalar _ _ _ _ ih =>
    obtain ⟨v, h1, h2⟩ := ih hm
    exact ⟨v, by simp [h1], h2⟩
  | @obj v vs kvs ho =>
    simp only [List.mem_append, List.mem_map, List.mem_singleton, reduceCtorEq, or_false] at hm
    obtain ⟨m, h1, h2⟩ := hm
    cases h2
    exact ⟨v, by simp, .member ho h1 .here⟩
  | @arr v vs ws es ha _ ih =>
    obtain ⟨u, h1, h2⟩ := ih hm
    rcases List.mem_append.1 h1 with h1 | h1
    · exact ⟨v, by simp, .elem ha h1 h2⟩
    · exact ⟨u, by simp [h1], h2⟩

mutual
/-- What is found is part of the document. -/
theorem find_inside {Hit : Bytes → Bytes → Prop} {v : Bytes} {ks : List Bytes} {o : Outcome} (h : Find Hit v ks o) {r : Bytes}
    (e : o = .found r) : Inside v r := by
  match h with
  | .scalar _ _ => cases e
  | .obj (kvs := kvs) ho hw => exact walk_inside hw (t := v) (fun kl w hm => by
      obtain ⟨m, h1, h2⟩ := List.mem_map.1 hm
      cases h2
      exact .member ho h1 .here) e
  | .beyond _ _ => cases e
  | .last ha _ _ he => cases e; exact .elem ha (List.mem_of_getElem? he) .here
  | .more ha _ _ he hf => exact .elem ha (List.mem_of_getElem? he) (find_inside hf e)
  | .none _ _ _ _ _ _ => cases e
theorem walk_inside {Hit : Bytes → Bytes → Prop} {k : Bytes} {ks : List Bytes} {es : List Seen} {o : Outcome} (h : Walk Hit k ks es o)
    {t : Bytes} (ht : ∀ kl w, .member kl w ∈ es → Inside t w) {r : Bytes} (e : o = .found r) : Inside t r := by
  match h with
  | .nil => cases e
  | .stop => cases e
  | .skip _ hw => exact walk_inside hw (fun kl w hm => ht kl w (by simp [hm])) e
  | .last (kl := kl) (v := v) _ => cases e; exact ht kl _ (by simp)
  | .scalar _ _ _ _ => cases e
  | .into (kl := kl) (v := v) _ _ hf _ => exact (ht kl v (by simp)).trans (find_inside hf e)
  | .again (kl := kl) (v := v) _ _ _ hm hw =>
    refine walk_inside hw (fun kl' w h => ?_) e
    rcases List.mem_append.1 h with h | h
    · obtain ⟨u, h1, h2⟩ := met_reaches hm h
      simp at h1; subst h1
      exact (ht kl _ (by simp)).trans h2
    · exact ht kl' w (by simp [h])
end
end Gjson
